import Verif.Proofs.Textbook
import Verif.Spec.Progressive
/-
The steps of the aligner and the steps of the short program for any number of texts.
-/

namespace CollateX
open Spec

/-- A graph with the paths of the witnesses, and the nodes and rows of the short program: vertex `n + 2` is node `n`. -/
structure Tracks (W : Work) (g : VGraph) (ps : List WPath) : Prop where
  vertices : g.vertices = List.range (W.words.length + 2)
  rows : ps.map WPath.inner = W.rows.map (List.map (· + 2))
  words : ∀ p ∈ ps, ∀ v t, (v, [t]) ∈ p.segs → W.words[v - 2]? = some t.str

/-- The same of any graph whose paths are rows of nodes. -/
structure Nodes (W : Work) (g : VGraph) (ps : List WPath) : Prop where
  bound : ∀ v ∈ g.vertices, v < W.words.length + 2
  rows : ps.map WPath.inner = W.rows.map (List.map (· + 2))

theorem Tracks.nodes {W : Work} {g : VGraph} {ps : List WPath} (T : Tracks W g ps) : Nodes W g ps :=
  ⟨fun v hv => by rw [T.vertices] at hv; exact List.mem_range.mp hv, T.rows⟩

section
variable {W : Work} {g : VGraph} {ps : List WPath} {rkf : VId → Nat} {o : List VId} {m : Nat} {r : Ranking}

theorem Nodes.inner (n : Nat) : n + 2 ≠ startV ∧ n + 2 ≠ endV := by
  refine ⟨?_, ?_⟩
  · show n + 2 ≠ 0
    omega
  · show n + 2 ≠ 1
    omega

theorem Nodes.node (T : Nodes W g ps) {v : VId} (hv : v ∈ g.vertices) (h0 : v ≠ startV) (h1 : v ≠ endV) :
    ∃ n, v = n + 2 ∧ n < W.words.length := by
  have := T.bound v hv
  have h0 : v ≠ 0 := h0
  have h1 : v ≠ 1 := h1
  exact ⟨v - 2, by omega, by omega⟩

theorem Nodes.row_of (T : Nodes W g ps) {p : WPath} (hp : p ∈ ps) : ∃ r ∈ W.rows, p.inner = r.map (· + 2) := by
  have : p.inner ∈ ps.map WPath.inner := List.mem_map_of_mem hp
  rw [T.rows] at this
  obtain ⟨r, hr, he⟩ := List.mem_map.mp this
  exact ⟨r, hr, he.symm⟩

theorem Nodes.path_of (T : Nodes W g ps) {r : List Nat} (hr : r ∈ W.rows) : ∃ p ∈ ps, p.inner = r.map (· + 2) := by
  have : r.map (· + 2) ∈ W.rows.map (List.map (· + 2)) := List.mem_map_of_mem hr
  rw [← T.rows] at this
  obtain ⟨p, hp, he⟩ := List.mem_map.mp this
  exact ⟨p, hp, he⟩

theorem mem_before {n k : Nat} : k ∈ W.before n ↔ ∃ r ∈ W.rows, ∃ i, r[i]? = some k ∧ r[i + 1]? = some n := by
  unfold Work.before
  rw [List.mem_flatMap]
  constructor
  · rintro ⟨r, hr, h⟩
    obtain ⟨q, hq, rfl⟩ := List.mem_map.mp h
    obtain ⟨h1, h2⟩ := List.mem_filter.mp hq
    obtain ⟨i, hi⟩ := List.getElem?_of_mem h1
    rw [List.getElem?_zip_eq_some] at hi
    have h2 : q.2 = n := by simpa using h2
    refine ⟨r, hr, i, hi.1, ?_⟩
    rw [← h2, ← hi.2]
    simp
  · rintro ⟨r, hr, i, h1, h2⟩
    refine ⟨r, hr, List.mem_map.mpr ⟨(k, n), List.mem_filter.mpr ⟨?_, by simp⟩, rfl⟩⟩
    apply List.mem_of_getElem? (i := i)
    rw [List.getElem?_zip_eq_some]
    exact ⟨h1, by simpa using h2⟩

theorem le_largest {l : List Nat} {x : Nat} (h : x ∈ l) : x ≤ Work.largest l := le_foldr_max h

theorem largest_mem {l : List Nat} (h : 0 < Work.largest l) : Work.largest l ∈ l := foldr_max_mem h

theorem Nodes.edge (T : Nodes W g ps) (hg : GInv g ps) {k n : Nat} : (k + 2, n + 2) ∈ g.pairs ↔ k ∈ W.before n := by
  rw [hg.edges_iff, mem_before]
  constructor
  · rintro ⟨p, hp, hc⟩
    obtain ⟨r, hr, he⟩ := T.row_of hp
    obtain ⟨i, h1, h2⟩ := consec_iff_getElem.mp hc
    unfold WPath.path at h1 h2
    rw [he] at h1 h2
    cases i with
    | zero =>
      simp [startV] at h1
    | succ i =>
      rw [List.getElem?_cons_succ] at h1 h2
      have hin : ∀ {i x : Nat}, (List.map (· + 2) r ++ [endV])[i]? = some (x + 2) → r[i]? = some x := by
        intro i x h
        by_cases hi : i < r.length
        · rw [List.getElem?_append_left (by simpa using hi), List.getElem?_map] at h
          obtain ⟨y, h3, h4⟩ := Option.map_eq_some_iff.mp h
          rw [h3, show y = x by omega]
        · rw [List.getElem?_append_right (by simp; omega)] at h
          have := List.mem_of_getElem? h
          simp only [List.mem_singleton] at this
          have : x + 2 = 1 := this
          omega
      exact ⟨r, hr, i, hin h1, hin h2⟩
  · rintro ⟨r, hr, i, h1, h2⟩
    obtain ⟨p, hp, he⟩ := T.path_of hr
    refine ⟨p, hp, consec_iff_getElem.mpr ⟨i + 1, ?_, ?_⟩⟩
    · unfold WPath.path
      rw [he, List.getElem?_cons_succ, List.getElem?_append_left (by simpa using (List.getElem?_eq_some_iff.mp h1).1), List.getElem?_map, h1]
      rfl
    · unfold WPath.path
      rw [he, List.getElem?_cons_succ, List.getElem?_append_left (by simpa using (List.getElem?_eq_some_iff.mp h2).1), List.getElem?_map, h2]
      rfl

theorem RankingOf.last (hg : GInv g ps) (hne : ps ≠ []) (hr : RankingOf g rkf o m r) : m = rkf endV + 1 := by
  have hbd := hg.rank_bounds hne (h := rkf) (fun p hp => hr.isRank.lt hg.wf (u := p.1) (v := p.2) hp)
  have h1 := hr.lt_m hg.end_mem
  by_contra hne'
  obtain ⟨v, hv, he⟩ := hr.st.ne (rkf endV + 1) (by omega)
  have hv := hr.topo.perm.mem_iff.mp hv
  by_cases h : v = endV
  · rw [h] at he
    omega
  · have := (hbd v hv).2 h
    omega

/-- The columns of the short program are the ranks. -/
theorem Nodes.column (T : Nodes W g ps) (hg : GInv g ps) (hne : ps ≠ []) (hr : RankingOf g rkf o m r) {n : Nat} (hn : n + 2 ∈ g.vertices) :
    W.column n = rkf (n + 2) := by
  have hbd := hg.rank_bounds hne (h := rkf) (fun p hp => hr.isRank.lt hg.wf (u := p.1) (v := p.2) hp)
  have key : ∀ k n, n + 2 ∈ g.vertices → rkf (n + 2) ≤ k → W.columnIn k n = rkf (n + 2) := by
    intro k
    induction k with
    | zero =>
      intro n h1 hk
      obtain ⟨h2, h3⟩ := Nodes.inner n
      have := (hbd _ h1).1 h2
      omega
    | succ k ih =>
      intro n h1 hk
      obtain ⟨h2, h3⟩ := Nodes.inner n
      have hpos := (hbd _ h1).1 h2
      have hb : ∀ j ∈ W.before n, j + 2 ∈ g.vertices ∧ rkf (j + 2) < rkf (n + 2) := by
        intro j hj
        have he := (T.edge hg).mpr hj
        exact ⟨(hg.wf.ends _ he).1, hr.isRank.lt hg.wf he⟩
      have hmap : (W.before n).map (W.columnIn k) = (W.before n).map (fun j => rkf (j + 2)) := by
        apply List.map_congr_left
        intro j hj
        have := hb j hj
        exact ih j this.1 (by omega)
      show Work.largest ((W.before n).map (W.columnIn k)) + 1 = _
      rw [hmap]
      obtain ⟨u, hu, hru⟩ := hr.isRank.pred h1 (by omega)
      have hle : Work.largest ((W.before n).map (fun j => rkf (j + 2))) < rkf (n + 2) := by
        rcases Nat.eq_zero_or_pos (Work.largest ((W.before n).map (fun j => rkf (j + 2)))) with h0 | h0
        · omega
        · obtain ⟨j, hj, he⟩ := List.mem_map.mp (largest_mem h0)
          rw [← he]
          exact (hb j hj).2
      have hge : rkf u ≤ Work.largest ((W.before n).map (fun j => rkf (j + 2))) := by
        by_cases h0 : u = startV
        · rcases Nat.eq_zero_or_pos (rkf u) with hz | hz
          · omega
          · obtain ⟨u', hu', _⟩ := hr.isRank.pred (hg.wf.ends _ hu).1 hz
            obtain ⟨q, hq, hc⟩ := (hg.edges_iff _ _).mp hu'
            have hnd := hg.path_nodup hq
            obtain ⟨i, _, hi⟩ := consec_iff_getElem.mp hc
            have hi0 : q.path[0]? = some startV := rfl
            rw [h0] at hi
            have := getElem_unique hnd hi0 hi
            omega
        · have h4 : u ≠ endV := by
            rintro rfl
            have := (hbd _ h1).2 h3
            omega
          obtain ⟨j, rfl, hj⟩ := T.node (hg.wf.ends _ hu).1 h0 h4
          exact le_largest (List.mem_map.mpr ⟨j, (T.edge hg).mp hu, rfl⟩)
      omega
  refine key _ n hn ?_
  obtain ⟨h2, h3⟩ := Nodes.inner n
  have h4 := (hbd _ hn).2 h3
  have h5 := hr.last hg hne
  have hm : m ≤ g.vertices.length := by
    have : ∀ k ∈ List.range m, k ∈ g.vertices.map rkf := by
      intro k hk
      obtain ⟨v, hv, he⟩ := hr.st.ne k (List.mem_range.mp hk)
      exact List.mem_map.mpr ⟨v, hr.topo.perm.mem_iff.mp hv, he⟩
    have := nodup_length_le List.nodup_range this
    simpa using this
  have hb : g.vertices.length ≤ W.words.length + 2 := by
    have := nodup_length_le hg.wf.nd (m := List.range (W.words.length + 2)) (fun v hv => List.mem_range.mpr (T.bound v hv))
    simpa using this
  omega

/-- The columns of the short program are the ranks between start and end. -/
theorem Nodes.width (T : Nodes W g ps) (hg : GInv g ps) (hne : ps ≠ []) (hr : RankingOf g rkf o m r) : W.width + 1 = rkf endV := by
  have hbd := hg.rank_bounds hne (h := rkf) (fun p hp => hr.isRank.lt hg.wf (u := p.1) (v := p.2) hp)
  have hcol : ∀ n < W.words.length, n + 2 ∈ g.vertices ∨ W.column n = 1 := by
    intro n hn
    by_cases hv : n + 2 ∈ g.vertices
    · exact Or.inl hv
    · right
      have hb : W.before n = [] := by
        rw [List.eq_nil_iff_forall_not_mem]
        intro k hk
        exact hv (hg.wf.ends _ ((T.edge hg).mpr hk)).2
      unfold Work.column
      obtain ⟨k, hk⟩ : ∃ k, W.words.length = k + 1 := ⟨W.words.length - 1, by omega⟩
      rw [hk]
      show Work.largest ((W.before n).map (W.columnIn k)) + 1 = 1
      rw [hb]
      rfl
  have he0 := (hbd _ hg.end_mem).1 (by decide)
  obtain ⟨u, hu, hru⟩ := hr.isRank.pred hg.end_mem (by omega)
  have hu0 : u ≠ startV := by
    rintro rfl
    obtain ⟨q, hq, hc⟩ := (hg.edges_iff _ _).mp hu
    obtain ⟨i, h2, h3⟩ := consec_iff_getElem.mp hc
    have hnd := hg.path_nodup hq
    have h4 : q.path[0]? = some startV := rfl
    have h5 := getElem_unique hnd h2 h4
    subst h5
    have hsn : q.inner ≠ [] := by
      unfold WPath.inner
      intro h
      exact hg.segs_ne q hq (List.map_eq_nil_iff.mp h)
    unfold WPath.path at h3
    obtain ⟨a, l, hl⟩ := List.exists_cons_of_ne_nil hsn
    rw [hl] at h3
    have : a = endV := by simpa using h3
    obtain ⟨x, hx, hxa⟩ := List.mem_map.mp (show a ∈ q.inner by rw [hl]; simp)
    exact (hg.segs_in q hq x hx).2.2.1 (hxa.trans this)
  have hu1 : u ≠ endV := by
    rintro rfl
    omega
  have hum : u ∈ g.vertices := (hg.wf.ends _ hu).1
  obtain ⟨n, rfl, hn⟩ := T.node hum hu0 hu1
  have h1 : W.width < rkf endV := by
    have hu2 := (hbd _ hum).1 hu0
    rcases Nat.eq_zero_or_pos W.width with h0 | h0
    · omega
    · unfold Work.width at h0 ⊢
      obtain ⟨k, hk, he⟩ := List.mem_map.mp (largest_mem h0)
      rw [← he]
      rcases hcol k (List.mem_range.mp hk) with h | h
      · rw [T.column hg hne hr h]
        exact (hbd _ h).2 (Nodes.inner k).2
      · omega
  have h2 : W.column n ≤ W.width := le_largest (List.mem_map.mpr ⟨n, List.mem_range.mpr hn, rfl⟩)
  rw [T.column hg hne hr hum] at h2
  omega

theorem Tracks.inner (T : Tracks W g ps) {n : Nat} (hn : n < W.words.length) : n + 2 ∈ g.vertices ∧ n + 2 ≠ startV ∧ n + 2 ≠ endV :=
  ⟨by rw [T.vertices]; exact List.mem_range.mpr (by omega), Nodes.inner n⟩

/-! ### Adding a text -/

/-- The words of the new vertices. -/
def newWords (al : Dict Token VId) (ts : List Token) : List Str := (ts.filter (fun t => (dget al t).isNone)).map Token.str

theorem newWords_at {al : Dict Token VId} : ∀ {ts : List Token} {n : Nat} {v : VId} {t : Token}, (∀ t v, dget al t = some v → v < n) →
    (v, [t]) ∈ newSegs al n ts → n ≤ v → (newWords al ts)[v - n]? = some t.str
  | t0 :: ts, n, v, t, hlt, h, hv => by
    unfold newWords
    simp only [newSegs] at h
    cases hd : dget al t0 with
    | some u =>
      rw [hd] at h
      rw [List.filter_cons_of_neg (by simp [hd])]
      rcases List.mem_cons.mp h with h | h
      · simp only [Prod.mk.injEq] at h
        have := hlt _ _ hd
        omega
      · exact newWords_at hlt h hv
    | none =>
      rw [hd] at h
      rw [List.filter_cons_of_pos (by simp [hd]), List.map_cons]
      rcases List.mem_cons.mp h with h | h
      · simp only [Prod.mk.injEq, List.cons.injEq, and_true] at h
        rw [h.1, Nat.sub_self, h.2]
        rfl
      · have hv' : n + 1 ≤ v := by
          obtain ⟨t', _, _, hc⟩ := newSegs_mem h
          rcases hc with hc | hc
          · have := hlt _ _ hc
            omega
          · exact hc.2.1
        have := newWords_at (n := n + 1) (fun t v h => by have := hlt t v h; omega) h hv'
        rw [show v - n = (v - (n + 1)) + 1 by omega, List.getElem?_cons_succ]
        exact this

theorem newSegs_all_new {al : Dict Token VId} : ∀ {ts : List Token} {n v : Nat}, n ≤ v → v < n + newCount al ts →
    v ∈ (newSegs al n ts).map Prod.fst
  | [], n, v, h1, h2 => by simp [newCount] at h2; omega
  | t :: ts, n, v, h1, h2 => by
    unfold newCount at h2
    simp only [newSegs]
    cases hd : dget al t with
    | some u =>
      rw [List.filter_cons_of_neg (by simp [hd])] at h2
      simp only [List.map_cons, List.mem_cons]
      exact Or.inr (newSegs_all_new h1 h2)
    | none =>
      rw [List.filter_cons_of_pos (by simp [hd]), List.length_cons] at h2
      simp only [List.map_cons, List.mem_cons]
      rcases Nat.eq_or_lt_of_le h1 with h | h
      · exact Or.inl h.symm
      · exact Or.inr (newSegs_all_new h (by unfold newCount; omega))

theorem numbered_newSegs {al : Dict Token VId} : ∀ {ts : List Token} {k : Nat}, (∀ t v, dget al t = some v → 2 ≤ v) →
    (newSegs al (k + 2) ts).map Prod.fst = (Work.numbered k (ts.map (fun t => (dget al t).map (· - 2)))).map (· + 2)
  | [], _, _ => rfl
  | t :: ts, k, h => by
    simp only [newSegs, List.map_cons]
    cases hd : dget al t with
    | some u =>
      have := h t u hd
      simp only [List.map_cons, Option.map_some, Work.numbered]
      rw [numbered_newSegs h, show u - 2 + 2 = u by omega]
    | none =>
      simp only [List.map_cons, Option.map_none, Work.numbered]
      rw [show k + 2 + 1 = k + 1 + 2 by omega, numbered_newSegs h]

theorem zip_newWords {al : Dict Token VId} : ∀ {ts : List Token}, ((ts.map (fun t => (dget al t).map (· - 2))).zip (ts.map Token.str)).filterMap
    (fun p => if p.1 = none then some p.2 else none) = newWords al ts
  | [] => rfl
  | t :: ts => by
    unfold newWords
    simp only [List.map_cons, List.zip_cons_cons]
    cases hd : dget al t with
    | some u =>
      rw [List.filter_cons_of_neg (by simp [hd]), List.filterMap_cons_none (by simp)]
      exact zip_newWords
    | none =>
      rw [List.filter_cons_of_pos (by simp [hd]), List.filterMap_cons_some (b := t.str) (by simp), List.map_cons]
      congr 1
      exact zip_newWords

/-- A further text is added to the graph and to the short program. -/
theorem Tracks.add {ti : TokenIndex} {s' : AlignSt} {al : Dict Token VId} {w : Witness} (hs' : AInv ti s' (ps ++ [P]))
    (hP : P = ⟨w.sigil, newSegs al (W.words.length + 2) w.tokens⟩)
    (hv : ∀ v, v < W.words.length + 2 ↔ v = startV ∨ v = endV ∨ ∃ p ∈ ps, v ∈ p.inner) (hrows : ps.map WPath.inner = W.rows.map (List.map (· + 2)))
    (hwords : ∀ p ∈ ps, ∀ v t, (v, [t]) ∈ p.segs → W.words[v - 2]? = some t.str)
    (hal : ∀ t v, dget al t = some v → 2 ≤ v ∧ v < W.words.length + 2 ∧ W.words[v - 2]? = some t.str)
    (pick : Nat × Nat → Nat) (hn : W.nodesFor (w.tokens.map Token.str) pick = w.tokens.map (fun t => (dget al t).map (· - 2))) :
    Tracks (W.add (w.tokens.map Token.str) pick) s'.g (ps ++ [P]) := by
  have hw' : (W.add (w.tokens.map Token.str) pick).words = W.words ++ newWords al w.tokens := by
    unfold Work.add
    simp only
    rw [hn, zip_newWords]
  have hcount : (newWords al w.tokens).length = newCount al w.tokens := by
    unfold newWords newCount
    rw [List.length_map]
  have hin : P.inner = (newSegs al (W.words.length + 2) w.tokens).map Prod.fst := by
    rw [hP]
    rfl
  refine ⟨?_, ?_, ?_⟩
  · have hmem : ∀ v, v < s'.g.next ↔ v < W.words.length + newCount al w.tokens + 2 := by
      intro v
      have h1 : v < s'.g.next ↔ v ∈ s'.g.vertices := by rw [hs'.numbers, List.mem_range]
      rw [h1]
      have hcov : v ∈ s'.g.vertices ↔ v = startV ∨ v = endV ∨ ∃ p ∈ ps ++ [P], v ∈ p.inner := by
        constructor
        · intro h
          by_cases h0 : v = startV
          · exact Or.inl h0
          · by_cases h1 : v = endV
            · exact Or.inr (Or.inl h1)
            · exact Or.inr (Or.inr (hs'.ginv.cover v h h0 h1))
        · rintro (rfl | rfl | ⟨p, hp, h⟩)
          · exact hs'.ginv.start_mem
          · exact hs'.ginv.end_mem
          · obtain ⟨q, hq, rfl⟩ := List.mem_map.mp h
            exact (hs'.ginv.segs_in p hp q hq).1
      rw [hcov]
      constructor
      · rintro (h | h | ⟨p, hp, h⟩)
        · have := (hv v).mpr (Or.inl h)
          omega
        · have := (hv v).mpr (Or.inr (Or.inl h))
          omega
        · rcases List.mem_append.mp hp with hp | hp
          · have := (hv v).mpr (Or.inr (Or.inr ⟨p, hp, h⟩))
            omega
          · simp only [List.mem_singleton] at hp
            subst hp
            rw [hin] at h
            obtain ⟨⟨v', l⟩, hq, rfl⟩ := List.mem_map.mp h
            obtain ⟨t, _, _, hc⟩ := newSegs_mem hq
            rcases hc with hc | hc
            · have := (hal t v' hc).2.1
              simp only
              omega
            · simp only
              omega
      · intro h
        by_cases hlt : v < W.words.length + 2
        · rcases (hv v).mp hlt with h | h | ⟨p, hp, h⟩
          · exact Or.inl h
          · exact Or.inr (Or.inl h)
          · exact Or.inr (Or.inr ⟨p, List.mem_append_left _ hp, h⟩)
        · refine Or.inr (Or.inr ⟨P, by simp, ?_⟩)
          rw [hin]
          exact newSegs_all_new (by omega) (by omega)
    have heq : s'.g.next = W.words.length + newCount al w.tokens + 2 := by
      rcases Nat.lt_trichotomy s'.g.next (W.words.length + newCount al w.tokens + 2) with h | h | h
      · have := (hmem _).mpr h
        omega
      · exact h
      · have := (hmem _).mp h
        omega
    rw [hs'.numbers, heq, hw', List.length_append, hcount]
  · rw [List.map_append, hrows]
    unfold Work.add
    simp only
    rw [hn, List.map_append, List.map_cons, List.map_nil, List.map_cons, List.map_nil, hin, numbered_newSegs (fun t v h => (hal t v h).1)]
  · intro p hp v t hm
    rw [hw']
    have hold : ∀ {x : Str}, W.words[v - 2]? = some x → (W.words ++ newWords al w.tokens)[v - 2]? = some x := by
      intro x h
      rw [List.getElem?_append_left (List.getElem?_eq_some_iff.mp h).1]
      exact h
    rcases List.mem_append.mp hp with hp | hp
    · exact hold (hwords p hp v t hm)
    · simp only [List.mem_singleton] at hp
      subst hp
      rw [hP] at hm
      by_cases hge : W.words.length + 2 ≤ v
      · have := newWords_at (fun t v h => (hal t v h).2.1) hm hge
        rw [List.getElem?_append_right (by omega), show v - 2 - W.words.length = v - (W.words.length + 2) by omega]
        exact this
      · obtain ⟨t', _, he, hc⟩ := newSegs_mem hm
        simp only [List.cons.injEq, and_true] at he
        subst he
        rcases hc with hc | hc
        · exact hold (hal t v hc).2.2
        · omega

end

section
variable {W : Work} {ts : TopoFn} {ti : TokenIndex} {s s' : AlignSt} {ps : List WPath} {w : Witness} {P : WPath} {rkf : VId → Nat}
  {o : List VId} {m : Nat} {r : Ranking} {cube : Cube} {cells : List (List Score)} {al : Dict Token VId}

theorem Tracks.next (T : Tracks W s.g ps) (hs : AInv ti s ps) : s.g.next = W.words.length + 2 := by
  have := congrArg List.length (hs.numbers.symm.trans T.vertices)
  simpa using this

theorem Tracks.mem_fits (T : Tracks W s.g ps) (hg : GInv s.g ps) (hne : ps ≠ []) (hr : RankingOf s.g rkf o m r) {n x : Nat} {b : Str} :
    n ∈ W.fits x b ↔ rkf (n + 2) = x + 1 ∧ W.words[n]? = some b := by
  unfold Work.fits
  rw [List.mem_filter, List.mem_range]
  simp only [Bool.and_eq_true, decide_eq_true_eq]
  constructor
  · rintro ⟨h1, h2, h3⟩
    rw [T.nodes.column hg hne hr (T.inner h1).1] at h2
    exact ⟨h2, h3⟩
  · rintro ⟨h1, h2⟩
    have hn := (List.getElem?_eq_some_iff.mp h2).1
    refine ⟨hn, ?_, h2⟩
    rw [T.nodes.column hg hne hr (T.inner hn).1]
    exact h1

/-- A step of the aligner is a step of the short program. -/
theorem StepOf.tracks (L : Layout ti) (hs : AInv ti s ps) (hne : ps ≠ []) (hw : ti.ws[ps.length]? = some w) (hs' : AInv ti s' (ps ++ [P]))
    (hst : StepOf ts none ti s ps w P rkf o m r cube cells al) (T : Tracks W s.g ps) :
    ∃ pick, W.Picks (w.tokens.map Token.str) pick ∧ Tracks (W.add (w.tokens.map Token.str) pick) s'.g (ps ++ [P]) := by
  have hnd := L.tokens_nodup hw
  -- what the cube has
  have hcube : ∀ (x y : Nat) (v : VId) (t : Token), dget cube ((y : Int), (x : Int)) = some (v, t) → ∃ n, v = n + 2 ∧ n < W.words.length ∧
      w.tokens[y]? = some t ∧ n ∈ W.fits x t.str := by
    intro x y v t hd
    obtain ⟨i, q, t', g1, g2, g3, g4, g5, g6, _⟩ := hst.hits _ v t hd
    injection g2 with g2 g2'
    obtain ⟨t3, hpl⟩ := (hs.va q v).mp g3
    obtain ⟨p3, hp3, hm3⟩ := hs.placed_seg hpl
    have hin := hs.ginv.segs_in p3 hp3 _ hm3
    obtain ⟨n, rfl, hn⟩ := T.nodes.node hin.1 hin.2.1 hin.2.2.1
    have h8 : t3 = t' := by
      obtain ⟨k, i', x, p, j1, j2, j3, j4, j5⟩ := hpl
      have := L.arr_tok k i' x t3 j1 j3
      rw [← j5, g5] at this
      exact (Option.some.inj this).symm
    subst h8
    obtain rfl : y = i := by omega
    refine ⟨n, rfl, hn, g1, (T.mem_fits hs.ginv hne hst.rank).mpr ⟨by omega, ?_⟩⟩
    have := T.words p3 hp3 _ _ hm3
    rw [show n + 2 - 2 = n by omega] at this
    rw [this, g6]
  have hhas : ∀ (x y n : Nat) (t : Token), w.tokens[y]? = some t → n ∈ W.fits x t.str → cube.has (y : Int) (x : Int) = true := by
    intro x y n t ht hn
    obtain ⟨h1, h2⟩ := (T.mem_fits hs.ginv hne hst.rank).mp hn
    obtain ⟨k1, k2, k3⟩ := T.inner (List.getElem?_eq_some_iff.mp h2).1
    obtain ⟨p, hp, hv⟩ := hs.ginv.cover _ k1 k2 k3
    obtain ⟨k, hk⟩ := List.getElem?_of_mem hp
    obtain ⟨i, hi⟩ := List.getElem?_of_mem hv
    have hkl := (List.getElem?_eq_some_iff.mp hk).1
    obtain ⟨x0, hx0⟩ : ∃ x0, ti.ws[k]? = some x0 := ⟨_, List.getElem?_eq_getElem (by have := hs.len; omega)⟩
    have hrd := (hs.reads k x0 p hx0 hk).2
    unfold WPath.inner at hi
    rw [List.getElem?_map] at hi
    obtain ⟨⟨v, l⟩, hseg, hv2⟩ := Option.map_eq_some_iff.mp hi
    simp only at hv2
    subst hv2
    have e := congrArg (fun l => l[i]?) hrd
    simp only [List.getElem?_map, hseg, Option.map_some] at e
    obtain ⟨t', h3, rfl⟩ := Option.map_eq_some_iff.mp e.symm
    have hpl : Placed ti.ws ps (off ti.ws k + i) (n + 2) t' := ⟨k, i, x0, p, hx0, hk, h3, hseg, rfl⟩
    have hword := T.words p hp _ _ (List.mem_of_getElem? hseg)
    rw [show n + 2 - 2 = n by omega, h2] at hword
    have hlt : off ti.ws k + i < off ti.ws ps.length := by
      have := off_lt ti.ws k ps.length x0 hx0 hkl (by have := hs.len; omega)
      have := (List.getElem?_eq_some_iff.mp h3).1
      omega
    have := hst.complete rfl y (off ti.ws k + i) t t' (n + 2) ht hlt (L.arr_tok k i x0 t' hx0 h3) ((hs.va _ _).mpr ⟨t', hpl⟩)
      (Option.some.inj hword).symm
    rw [show (rkf (n + 2) : Int) - 1 = (x : Int) by omega] at this
    exact this
  have hrel : ∀ y x, cube.rel y x = W.same (w.tokens.map Token.str) x y := by
    intro y x
    unfold Cube.rel Work.same
    rw [List.getElem?_map, Bool.eq_iff_iff]
    constructor
    · intro h
      unfold Cube.has dmem at h
      obtain ⟨⟨v, t⟩, hd⟩ := Option.isSome_iff_exists.mp h
      obtain ⟨n, _, _, h3, h4⟩ := hcube x y v t hd
      rw [h3]
      simp only [Option.map_some]
      cases hf : W.fits x t.str with
      | nil => rw [hf] at h4; cases h4
      | cons a l => rfl
    · intro h
      cases ht : w.tokens[y]? with
      | none => rw [ht] at h; cases h
      | some t =>
        rw [ht] at h
        simp only [Option.map_some] at h
        cases hf : W.fits x t.str with
        | nil => rw [hf] at h; cases h
        | cons a l => exact hhas x y a t ht (by rw [hf]; simp)
  obtain ⟨V, hV⟩ : ∃ V : Nat × Nat → VId, V = fun p => ((dget cube ((p.2 : Int), (p.1 : Int))).map Prod.fst).getD startV := ⟨_, rfl⟩
  have V' : ∀ (x y : Nat) (v : VId) (t : Token), dget cube ((y : Int), (x : Int)) = some (v, t) → V (x, y) = v := by
    intro x y v t h
    rw [hV]
    simp [h]
  have key := hst.kept L hs hw hrel V V'
  have hwid : rankCount s.g r - 1 = W.width := by
    have h1 := hst.rank.last hs.ginv hne
    have h2 := T.nodes.width hs.ginv hne hst.rank
    rw [rankCount_eq hst.rank]
    omega
  rw [hwid, ← List.length_map (f := Token.str)] at key
  have hitD : ∀ p ∈ (aligned (W.same (w.tokens.map Token.str)) W.width (w.tokens.map Token.str).length).2,
      ∃ t, dget cube ((p.2 : Int), (p.1 : Int)) = some (V p, t) := by
    intro p hp
    have h1 := aligned_same _ _ _ p hp
    rw [← hrel] at h1
    unfold Cube.rel Cube.has dmem at h1
    obtain ⟨⟨v, t⟩, hd⟩ := Option.isSome_iff_exists.mp h1
    exact ⟨t, by rw [hd, show V p = v from V' _ _ _ _ hd]⟩
  have hfirst : firstOf V (aligned (W.same (w.tokens.map Token.str)) W.width (w.tokens.map Token.str).length).2 =
      W.links (w.tokens.map Token.str) (fun p => V p - 2) := by
    unfold Work.links
    apply firstOf_congr
    intro p hp q hq
    obtain ⟨t, hd⟩ := hitD p hp
    obtain ⟨t', hd'⟩ := hitD q hq
    obtain ⟨n, h1, _⟩ := hcube _ _ _ _ hd
    obtain ⟨n', h1', _⟩ := hcube _ _ _ _ hd'
    rw [h1, h1']
    simp
  rw [hfirst] at key
  have hnodes : W.nodesFor (w.tokens.map Token.str) (fun p => V p - 2) = w.tokens.map (fun t => (dget al t).map (· - 2)) := by
    apply List.ext_getElem?
    intro j
    unfold Work.nodesFor
    rw [List.length_map, List.getElem?_map, List.getElem?_map]
    by_cases hj : j < w.tokens.length
    · obtain ⟨t, ht⟩ : ∃ t, w.tokens[j]? = some t := ⟨_, List.getElem?_eq_getElem hj⟩
      rw [List.getElem?_range hj, ht, Option.map_some, Option.map_some]
      congr 1
      cases hfind : (W.links (w.tokens.map Token.str) (fun p => V p - 2)).find? (fun p => decide (p.2 = j)) with
      | some p =>
        have h1 := List.mem_of_find?_eq_some hfind
        have h2 : p.2 = j := by simpa using List.find?_some hfind
        obtain ⟨t', hd⟩ := hitD p (mem_of_firstOf h1)
        obtain ⟨n, _, _, h3, _⟩ := hcube _ _ _ _ hd
        rw [h2, ht] at h3
        obtain rfl := Option.some.inj h3
        rw [(key t (V p)).mpr ⟨p, h1, by rw [h2]; exact ht, rfl, hd⟩]
        rfl
      | none =>
        cases hd : dget al t with
        | none => rfl
        | some v =>
          obtain ⟨p, h1, h2, _⟩ := (key t v).mp hd
          have := List.find?_eq_none.mp hfind p h1
          have h3 := getElem_unique hnd h2 ht
          simp [h3] at this
    · rw [List.getElem?_eq_none (by simpa using hj), List.getElem?_eq_none (by omega)]
      rfl
  refine ⟨fun p => V p - 2, ?_, ?_⟩
  · intro x j b hb hf
    rw [List.getElem?_map] at hb
    obtain ⟨t, ht, rfl⟩ := Option.map_eq_some_iff.mp hb
    obtain ⟨n, hn⟩ := List.exists_mem_of_ne_nil _ hf
    have h1 := hhas x j n t ht hn
    unfold Cube.has dmem at h1
    obtain ⟨⟨v, t'⟩, hd⟩ := Option.isSome_iff_exists.mp h1
    obtain ⟨n', rfl, _, h3, h4⟩ := hcube _ _ _ _ hd
    rw [ht] at h3
    obtain rfl := Option.some.inj h3
    simp only [V' _ _ _ _ hd]
    rw [show n' + 2 - 2 = n' by omega]
    exact h4
  · refine Tracks.add hs' (al := al) ?_ ?_ T.rows T.words ?_ _ hnodes
    · rw [← T.next hs]
      exact hst.path
    · intro v
      rw [← T.next hs, ← List.mem_range, ← hs.numbers]
      constructor
      · intro h
        by_cases h0 : v = startV
        · exact Or.inl h0
        · by_cases h1 : v = endV
          · exact Or.inr (Or.inl h1)
          · exact Or.inr (Or.inr (hs.ginv.cover v h h0 h1))
      · rintro (rfl | rfl | ⟨p, hp, h⟩)
        · exact hs.ginv.start_mem
        · exact hs.ginv.end_mem
        · obtain ⟨q, hq, rfl⟩ := List.mem_map.mp h
          exact (hs.ginv.segs_in p hp q hq).1
    · intro t v hd
      obtain ⟨p, _, _, _, hc⟩ := (key t v).mp hd
      obtain ⟨n, rfl, h1, _, h2⟩ := hcube _ _ _ _ hc
      rw [show n + 2 - 2 = n by omega]
      exact ⟨by omega, by omega, ((T.mem_fits hs.ginv hne hst.rank).mp h2).2⟩

/-- The first witness. -/
theorem tracks_first {ti : TokenIndex} {s : AlignSt} {w : Witness} (hs : AInv ti s [⟨w.sigil, newSegs [] 2 w.tokens⟩]) :
    Tracks ((⟨[], []⟩ : Work).add (w.tokens.map Token.str) (fun _ => 0)) s.g [⟨w.sigil, newSegs [] 2 w.tokens⟩] := by
  refine Tracks.add (W := ⟨[], []⟩) (ps := []) (al := []) hs rfl ?_ rfl (by simp) (by simp [dget]) _ ?_
  · intro v
    simp only [List.length_nil, Nat.zero_add, List.not_mem_nil, false_and, exists_false, or_false]
    show v < 2 ↔ v = 0 ∨ v = 1
    omega
  · apply List.ext_getElem?
    intro j
    unfold Work.nodesFor
    rw [List.length_map, List.getElem?_map, List.getElem?_map]
    by_cases hj : j < w.tokens.length
    · rw [List.getElem?_range hj, List.getElem?_eq_getElem hj]
      simp [Work.links, Work.width, Work.largest, aligned, firstOf, dget]
    · rw [List.getElem?_eq_none (by simpa using hj), List.getElem?_eq_none (by omega)]
      rfl

end

end CollateX
