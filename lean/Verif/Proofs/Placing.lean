import Verif.Proofs.Beginning
import Verif.Proofs.Fits
import Verif.Props.Ranks
import Verif.Props.Nested
import Verif.Spec.Placing
/-
The last step of the aligner, seen from the run on the earlier witnesses.
-/

namespace CollateX
open Spec

theorem rank_end {g : VGraph} {ps : List WPath} {rkf : VId → Nat} {o : List VId} {m : Nat} {r : Ranking} (hg : GInv g ps) (hne : ps ≠ [])
    (R : RankingOf g rkf o m r) : m = rkf endV + 1 := by
  have hbd := hg.rank_bounds hne (h := rkf) (fun p hp => R.isRank.lt hg.wf hp)
  have hem := R.lt_m hg.end_mem
  obtain ⟨v, hv, he⟩ := R.st.ne (m - 1) (by omega)
  by_cases h : v = endV
  · subst h; omega
  · have := (hbd v (R.topo.perm.mem_iff.mp hv)).2 h
    omega

/-- Graphs with the same paths have the same ranks. -/
theorem rank_same {g g' : VGraph} {ps ps' : List WPath} {rkf rkf' : VId → Nat} (hg : GInv g ps) (hg' : GInv g' ps')
    (R : IsRank g rkf) (R' : IsRank g' rkf') (hp : ps.map WPath.inner = ps'.map WPath.inner) {v : VId} (hv : v ∈ g.vertices)
    (hv' : v ∈ g'.vertices) : rkf v = rkf' v := by
  have key : ∀ {ps ps' : List WPath}, ps.map WPath.inner = ps'.map WPath.inner → ∀ u v, (∃ p ∈ ps, Consec p.path u v) →
      ∃ p ∈ ps', Consec p.path u v := by
    intro ps ps' h u v ⟨p, hp, hc⟩
    have : p.inner ∈ ps'.map WPath.inner := by rw [← h]; exact List.mem_map.mpr ⟨p, hp, rfl⟩
    obtain ⟨p', hp', he⟩ := List.mem_map.mp this
    refine ⟨p', hp', ?_⟩
    unfold WPath.path at hc ⊢
    rw [he]
    exact hc
  apply Nat.le_antisymm
  · refine IsRank.le hg.wf R (f := rkf') ?_ _ v hv rfl
    rintro ⟨a, b⟩ he
    exact R'.lt hg'.wf ((hg'.edges_iff a b).mpr (key hp a b ((hg.edges_iff a b).mp he)))
  · refine IsRank.le hg'.wf R' (f := rkf) ?_ _ v hv' rfl
    rintro ⟨a, b⟩ he
    exact R.lt hg.wf ((hg.edges_iff a b).mpr (key hp.symm a b ((hg'.edges_iff a b).mp he)))

/-- The vertices with a given string, in terms of the witnesses and of the inner vertices of the paths. -/
theorem AInv.segs_iff {ti : TokenIndex} {s : AlignSt} {ps : List WPath} (hs : AInv ti s ps) {ws : List Witness} (hti : ti.ws = indexed 0 ws)
    (F : VId → Prop) (a : Str) : (∃ p ∈ ps, ∃ v t', (v, [t']) ∈ p.segs ∧ t'.str = a ∧ F v) ↔
      ∃ (k i : Nat) (I : List VId) (v : VId) (b : Witness), (ps.map WPath.inner)[k]? = some I ∧ I[i]? = some v ∧ ws[k]? = some b ∧
        (strings b)[i]? = some a ∧ F v := by
  constructor
  · rintro ⟨p, hp, v, t', h1, h2, h3⟩
    obtain ⟨k, hk⟩ := List.getElem?_of_mem hp
    have hkl : k < ti.ws.length := by
      have := (List.getElem?_eq_some_iff.mp hk).1
      have := hs.len
      omega
    obtain ⟨x, hw⟩ : ∃ x, ti.ws[k]? = some x := ⟨_, List.getElem?_eq_getElem hkl⟩
    obtain ⟨_, r2⟩ := hs.reads k _ p hw hk
    obtain ⟨i, hi⟩ := List.getElem?_of_mem h1
    rw [hti] at hw
    obtain ⟨b, e1, _, e2⟩ := indexed_strs _ hw
    refine ⟨k, i, p.inner, v, b, by rw [List.getElem?_map, hk]; rfl, by unfold WPath.inner; rw [List.getElem?_map, hi]; rfl, e1, ?_, h3⟩
    have h4 : (p.segs.map Prod.snd)[i]? = some [t'] := by rw [List.getElem?_map, hi]; rfl
    rw [r2, List.getElem?_map] at h4
    obtain ⟨t2, h5, h6⟩ := Option.map_eq_some_iff.mp h4
    have h7 : t2 = t' := by simpa using h6
    subst h7
    have h8 := congrArg (fun l => l[i]?) e2
    simp only [List.getElem?_map] at h8
    rw [h5] at h8
    unfold strings
    rw [List.getElem?_map, ← h8]
    simp [h2]
  · rintro ⟨k, i, I, v, b, h1, h2, h3, h4, h5⟩
    rw [List.getElem?_map] at h1
    obtain ⟨p, hk, rfl⟩ := Option.map_eq_some_iff.mp h1
    have hkl : k < ti.ws.length := by
      have := (List.getElem?_eq_some_iff.mp hk).1
      have := hs.len
      omega
    obtain ⟨x, hw⟩ : ∃ x, ti.ws[k]? = some x := ⟨_, List.getElem?_eq_getElem hkl⟩
    obtain ⟨_, r2⟩ := hs.reads k _ p hw hk
    unfold WPath.inner at h2
    rw [List.getElem?_map] at h2
    obtain ⟨⟨v', ts⟩, hi, rfl⟩ := Option.map_eq_some_iff.mp h2
    have h6 : (p.segs.map Prod.snd)[i]? = some ts := by rw [List.getElem?_map, hi]; rfl
    rw [r2, List.getElem?_map] at h6
    obtain ⟨t2, h7, rfl⟩ := Option.map_eq_some_iff.mp h6
    refine ⟨p, List.mem_of_getElem? hk, v', t2, List.mem_of_getElem? hi, ?_, h5⟩
    rw [hti] at hw
    obtain ⟨b', e1, _, e2⟩ := indexed_strs _ hw
    rw [h3] at e1
    obtain rfl := Option.some.inj e1
    have h8 := congrArg (fun l => l[i]?) e2
    simp only [List.getElem?_map] at h8
    rw [h7] at h8
    unfold strings at h4
    rw [List.getElem?_map, ← h8] at h4
    simpa using h4

/-- The string of a match is the label of its vertex. -/
theorem StepOf.str_of {ts : TopoFn} {ti : TokenIndex} {s : AlignSt} {ps : List WPath} {w : Witness} {P : WPath} {rkf : VId → Nat}
    {o : List VId} {m : Nat} {r : Ranking} {cube : Cube} {cells : List (List Score)} {al : Dict Token VId} {pf : Option PFilter}
    (L : Layout ti) (hs : AInv ti s ps) (hst : StepOf ts pf ti s ps w P rkf o m r cube cells al) {i : Nat} {x : Int} {v : VId} {t : Token}
    (hd : dget cube ((i : Int), x) = some (v, t)) : w.tokens[i]? = some t ∧ (dget s.g.nodes v).map Vertex.label = some t.str := by
  obtain ⟨j, q, t', g1, g2, g3, _, g5, g6, _⟩ := hst.hits _ v t hd
  injection g2 with g2 _
  obtain rfl : i = j := by omega
  refine ⟨g1, ?_⟩
  obtain ⟨t3, hpl3⟩ := (hs.va q v).mp g3
  have h4 := hpl3.arr L
  rw [g5] at h4
  obtain rfl := Option.some.inj h4
  obtain ⟨p3, hp3, hm3⟩ := hs.placed_seg hpl3
  obtain ⟨y, hy⟩ := exists_dget_of_mem_keys (hs.ginv.segs_in p3 hp3 _ hm3).1
  rw [hy, Option.map_some, hs.label p3 hp3 v _ hm3 y hy, g6]

/-- What the last step of the aligner makes of the columns of the earlier witnesses. -/
theorem further_core {env : Env} {us : List Witness} {w : Witness} (hts : TopoSpec env.topo) (hv : Valid (us ++ [w])) (hne : us ≠ [])
    (hsg : ∀ u ∈ us ++ [w], u.sigil ≠ []) {o : Opts} (ho : ExactMatching o) (hf : o.pfilter = none)
    (htw : ∀ m, 2 ≤ m → m < us.length → ∀ us' g rk,
      collateRanked env (us.take m) { o with segmentation := false } = .ok (us', g, rk) → TwinFree g rk) :
    ∃ g rk qs P rkf ord m g0 rk0 qs0 rkf0 ord0 m0,
      collateRanked env (us ++ [w]) { o with segmentation := false } = .ok (indexed 0 (us ++ [w]), g, rk) ∧
      Collated env.cc (indexed 0 (us ++ [w])) false g (qs ++ [P]) rk rkf ord m ∧ qs.length = us.length ∧
      collateRanked env us { o with segmentation := false } = .ok (indexed 0 us, g0, rk0) ∧
      Collated env.cc (indexed 0 us) false g0 qs0 rk0 rkf0 ord0 m0 ∧ qs.map WPath.inner = qs0.map WPath.inner ∧
      (∃ (len : Nat) (f : VId → Nat), f endV = len + 1 ∧ (∀ e ∈ g.pairs, f e.1 < f e.2) ∧ len ≤ m0 - 2 + (strings w).length) ∧
      ∃ M : Nat → Nat → Bool,
        (∀ y x, M y x = true ↔ ∃ a, (strings w)[y]? = some a ∧ ∃ p ∈ qs0, ∃ v t', (v, [t']) ∈ p.segs ∧ t'.str = a ∧ rkf0 v = x + 1) ∧
        ((∀ (i j x : Nat) (a : Str), i < j → (strings w)[i]? = some a → (strings w)[j]? = some a → M i x = true → M j x = true →
          M (j - 1) x = false) → ∃ (len : Nat) (f : VId → Nat), f endV = len + 1 ∧
          (∀ e ∈ g.pairs, f e.1 < f e.2) ∧ ∀ steps, endOf steps (0, 0) = (m0 - 2, (strings w).length) →
            pathScore M steps (0, 0) ≤ 2 * ((P.inner.filter (fun v => decide (∃ q ∈ qs, v ∈ q.inner))).length : Int) - len) := by
  have hn0 : 0 < us.length := List.length_pos_iff.mpr hne
  have htake : (us ++ [w]).take us.length = us := by simp
  have hv' : Valid us := by have := hv.take hn0; rwa [htake] at this
  have hsg' : ∀ u ∈ us, u.sigil ≠ [] := fun u hu => hsg u (by simp [hu])
  have htw' : ∀ m, 2 ≤ m → m < us.length → ∀ us' g rk,
      collateRanked env ((us ++ [w]).take m) { o with segmentation := false } = .ok (us', g, rk) → TwinFree g rk := by
    intro m h1 h2
    rw [List.take_append_of_le_length (by omega)]
    exact htw m h1 h2
  obtain ⟨ti, hti, hws, L, B⟩ := hv.tokenIndex
  obtain ⟨ti', hti', hws', L', B'⟩ := hv'.tokenIndex
  obtain ⟨w1, rest, hw1⟩ := List.exists_cons_of_ne_nil L.ne
  obtain ⟨w1', rest', hw1'⟩ := List.exists_cons_of_ne_nil L'.ne
  obtain ⟨s, h1, _⟩ := firstWitness_ok L (w := w1) (by rw [hw1]; rfl)
  obtain ⟨s', h1', _⟩ := firstWitness_ok L' (w := w1') (by rw [hw1']; rfl)
  have e1 : rest.length = us.length := by
    have := congrArg List.length hw1
    rw [hws, indexed_length] at this
    simpa using this.symm
  have e2 : rest'.length + 1 = us.length := by
    have := congrArg List.length hw1'
    rw [hws', indexed_length] at this
    simpa using this.symm
  have ha := along_of_twinFree hts hv hsg ho hf htw' hws L B hw1 h1 (us.length - 1) (by omega) (by omega)
  have hlt : (rest.take (us.length - 1)).length = us.length - 1 := by rw [List.length_take]; omega
  have hsh : Shape us.length (us ++ [w]) us := by have := shape_take (us ++ [w]) us.length (by simp); rwa [htake] at this
  have hse : SameEqualities (us ++ [w]) us := by have := sameEqualities_take (us ++ [w]) us.length; rwa [htake] at this
  obtain ⟨t, t', qs, qs', c1, c2, c3, c4, c5, c6⟩ := runs_of_noTwins (ts := env.topo) (n := us.length) hts L L' B B'
    (by rw [hws, hws']; exact hsh.indexed) (by rw [hws, hws']; exact hse.indexed)
    (fun a b hab => by rw [hws, hws'] at hab; exact sigRel_ne hsg hsg' hab) (rest := rest.take (us.length - 1)) (rest' := rest') (by omega)
    (by omega) (by rw [hw1]; exact List.prefix_iff_eq_take.mpr (by simp [hlt])) (by rw [hw1']; exact List.prefix_refl _) h1 h1' ha
  have hq' : qs'.length = us.length := by rw [← c6.len, c5]
  have hqne : qs ≠ [] := by intro h; rw [h] at c5; simp at c5; omega
  have hqne' : qs' ≠ [] := by intro h; rw [h] at hq'; simp at hq'; omega
  obtain ⟨rkf0, ord0, m0, rk0, hrk0, hR0⟩ := rankingOf_ok hts c4.ginv.wf c4.ginv.near
  have C0 : Collated env.cc (indexed 0 us) false t'.g qs' rk0 rkf0 ord0 m0 :=
    ⟨c4.ginv, by rw [c4.readings (by rw [hws', indexed_length, hq']), hws'], c4.uniform, c4.labelled _, fun _ => c4.single, by simp, hR0⟩
  let Res : VGraph → WPath → Prop := fun g P =>
    (∃ (len : Nat) (f : VId → Nat), f endV = len + 1 ∧ (∀ e ∈ g.pairs, f e.1 < f e.2) ∧ len ≤ m0 - 2 + (strings w).length) ∧ ∃ M : Nat → Nat → Bool,
    (∀ y x, M y x = true ↔ ∃ a, (strings w)[y]? = some a ∧ ∃ p ∈ qs', ∃ v t', (v, [t']) ∈ p.segs ∧ t'.str = a ∧ rkf0 v = x + 1) ∧
    ((∀ (i j x : Nat) (a : Str), i < j → (strings w)[i]? = some a → (strings w)[j]? = some a → M i x = true → M j x = true →
          M (j - 1) x = false) → ∃ (len : Nat) (f : VId → Nat), f endV = len + 1 ∧
      (∀ e ∈ g.pairs, f e.1 < f e.2) ∧ ∀ steps, endOf steps (0, 0) = (m0 - 2, (strings w).length) →
        pathScore M steps (0, 0) ≤ 2 * ((P.inner.filter (fun v => decide (∃ q ∈ qs, v ∈ q.inner))).length : Int) - len)
  have hkeep : StepKeeps env.topo none ti (fun s ps => (s = t ∧ ps = qs) ∨ ∃ P, ps = qs ++ [P] ∧ Res s.g P) := by
    intro s s' ps w' P rkf o m r cube cells al hs hne hw hs' hst hq
    rcases hq with ⟨rfl, rfl⟩ | ⟨P', rfl, _⟩
    · have hmem : ∀ (k i : Nat) (I : List VId) (v : VId), (ps.map WPath.inner)[k]? = some I → I[i]? = some v → v ∈ s.g.vertices ∧
          v ∈ t'.g.vertices := by
        have hin : ∀ {ti : TokenIndex} {s : AlignSt} {ps : List WPath}, AInv ti s ps → ∀ (k i : Nat) (I : List VId) (v : VId),
            (ps.map WPath.inner)[k]? = some I → I[i]? = some v → v ∈ s.g.vertices := by
          intro ti s ps hs k i I v a1 a2
          obtain ⟨p, hp, rfl⟩ := List.mem_map.mp (List.mem_of_getElem? a1)
          obtain ⟨q, hq, rfl⟩ := List.mem_map.mp (List.mem_of_getElem? a2)
          exact (hs.ginv.segs_in p hp q hq).1
        intro k i I v a1 a2
        exact ⟨hin hs k i I v a1 a2, hin c4 k i I v (by rw [← c6.inner]; exact a1) a2⟩
      have hrank : ∀ v, v ∈ s.g.vertices ∧ v ∈ t'.g.vertices → rkf v = rkf0 v := fun v h =>
        rank_same hs.ginv c4.ginv hst.rank.isRank hR0.isRank c6.inner h.1 h.2
      have e5 : w'.tokens.map Token.str = strings w := by
        rw [hws] at hw
        obtain ⟨a, e1, _, e2⟩ := indexed_strs _ hw
        rw [c5] at e1
        simp only [List.getElem?_append_right (Nat.le_refl _), Nat.sub_self, List.getElem?_cons_zero, Option.some.injEq] at e1
        rw [e2, e1]
        rfl
      obtain ⟨len, f, f0, f1, f2, f4, f3⟩ := hst.fits_any L hs hne hw hs'
      have hm := rank_end hs.ginv hne hst.rank
      have hm0 := rank_end c4.ginv hqne' hR0
      have he := rank_same hs.ginv c4.ginv hst.rank.isRank hR0.isRank c6.inner hs.ginv.end_mem c4.ginv.end_mem
      refine Or.inr ⟨P, rfl, ⟨len, f, f1, f2, ?_⟩, cube.rel, ?_, ?_⟩
      · rw [← e5, List.length_map]
        omega
      · intro y x
        obtain ⟨cube', k1, k2⟩ := hs.cube L B hst.rank hw
        rw [hst.cube_ok] at k1
        obtain rfl := Except.ok.inj k1
        unfold Cube.rel
        rw [k2]
        constructor
        · rintro ⟨i, t1, q1, q2, p, hp, v, t2, q3, q4, q5⟩
          obtain rfl : y = i := by omega
          refine ⟨t1.str, by rw [← e5, List.getElem?_map, q2]; rfl, ?_⟩
          obtain ⟨k, i, I, v, b, a1, a2, a3, a4, a5⟩ := (hs.segs_iff hws (fun v => (x : Int) = (rkf v : Int) - 1) t1.str).mp ⟨p, hp, v, t2, q3, q4, q5⟩
          have hkl : k < us.length := by
            have := (List.getElem?_eq_some_iff.mp a1).1
            rw [List.length_map, c5] at this
            exact this
          refine (c4.segs_iff hws' (fun v => rkf0 v = x + 1) t1.str).mpr ⟨k, i, I, v, b, by rw [← c6.inner]; exact a1, a2, ?_, a4, ?_⟩
          · rwa [List.getElem?_append_left hkl] at a3
          · have := hrank v (hmem k i I v a1 a2)
            omega
        · rintro ⟨a, q1, q2⟩
          obtain ⟨k, i, I, v, b, a1, a2, a3, a4, a5⟩ := (c4.segs_iff hws' (fun v => rkf0 v = x + 1) a).mp q2
          have hkl := (List.getElem?_eq_some_iff.mp a3).1
          rw [← c6.inner] at a1
          rw [← e5, List.getElem?_map] at q1
          obtain ⟨t1, q3, rfl⟩ := Option.map_eq_some_iff.mp q1
          obtain ⟨p, hp, v', t2, r1, r2, r3⟩ := (hs.segs_iff hws (fun v => (x : Int) = (rkf v : Int) - 1) t1.str).mpr ⟨k, i, I, v, b, a1, a2,
            by rw [List.getElem?_append_left hkl]; exact a3, a4, by
              have := hrank v (hmem k i I v a1 a2)
              omega⟩
          exact ⟨y, t1, rfl, q3, p, hp, v', t2, r1, r2, r3⟩
      · intro hM
        have f3 := f3 (by
          intro i j x v t1 t2 hij hj d1 d2
          obtain ⟨a1, a2⟩ := hst.str_of L hs d1
          obtain ⟨b1, b2⟩ := hst.str_of L hs d2
          have hr : ∀ (y : Nat) (t : Token), dget cube ((y : Int), (x : Int)) = some (v, t) → cube.rel y x = true := by
            intro y t h
            unfold Cube.rel Cube.has
            unfold dmem
            rw [h]; rfl
          have := hM i j x t1.str hij (by rw [← e5, List.getElem?_map, a1]; rfl)
            (by rw [← e5, List.getElem?_map, b1, Option.map_some, ← b2, a2]) (hr i t1 d1) (hr j t2 d2)
          rw [hj] at this
          cases this)
        refine ⟨len, f, f1, f2, ?_⟩
        intro steps hend
        have h3 := f3 steps (by rw [hend, ← e5, List.length_map, hm, hm0, he])
        have h4 : P.inner.filter (· ∈ s.g.vertices) = P.inner.filter (fun v => decide (∃ q ∈ ps, v ∈ q.inner)) := by
          apply List.filter_congr
          intro v hv
          obtain ⟨q, hq, rfl⟩ := List.mem_map.mp hv
          have h5 := hs'.ginv.segs_in P (by simp) q hq
          simp only [decide_eq_decide]
          constructor
          · intro h6
            exact hs.ginv.cover q.1 h6 h5.2.1 h5.2.2.1
          · rintro ⟨p, hp, h6⟩
            obtain ⟨q', hq', he⟩ := List.mem_map.mp h6
            rw [← he]
            exact (hs.ginv.segs_in p hp q' hq').1
        rw [h4] at h3
        exact h3
    · exfalso
      have := (List.getElem?_eq_some_iff.mp hw).1
      rw [hws, indexed_length] at this
      simp [c5] at this
  obtain ⟨u, ps, d1, d2, d3, d4⟩ := alignWitnesses_inv hts none L B hkeep (rest.drop (us.length - 1)) t qs c3 hqne
    (by rw [c5, hw1]; obtain ⟨m, hm⟩ : ∃ m, us.length = m + 1 := ⟨us.length - 1, by omega⟩; rw [hm]; simp) (Or.inl ⟨rfl, rfl⟩)
  have hrun : alignWitnesses env.topo none false ti rest s = .ok u := by
    have := alignWitnesses_append (rest.take (us.length - 1)) (rest.drop (us.length - 1)) _ _ c1
    rw [List.take_append_drop] at this
    rw [this, d1]
  have hlen : ps.length = us.length + 1 := by rw [d3, hws, indexed_length]; simp
  obtain ⟨rkf, ord, m, rk, hrk, hR⟩ := rankingOf_ok hts d2.ginv.wf d2.ginv.near
  have k1 := collateRanked_plain (env := env) ho (by rw [hf]; exact collateGraph_run hti hw1 h1 hrun) hrk
  have k2 := collateRanked_plain (env := env) ho (by rw [hf]; exact collateGraph_run hti' hw1' h1' c2) hrk0
  rw [hws] at k1
  rw [hws'] at k2
  rcases d4 with ⟨_, rfl⟩ | ⟨P, rfl, hres⟩
  · omega
  · exact ⟨u.g, rk, qs, P, rkf, ord, m, t'.g, rk0, qs', rkf0, ord0, m0, k1,
      ⟨d2.ginv, by rw [d2.readings d3, hws], d2.uniform, d2.labelled _, fun _ => d2.single, by simp, hR⟩, c5, k2, C0, c6.inner, hres⟩

end CollateX
