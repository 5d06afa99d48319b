import Verif.Proofs.NearTwo
import Verif.Props.Table
/-
C33, C34: near matching.
-/

namespace CollateX
open Spec

/-- Near matching starts from a graph collated without it. -/
theorem near_base_of (env : Env) (hts : TopoSpec env.topo) {ws : List Witness} (hv : Valid ws) {o : Opts} (ho : NearMatching o)
    {g : VGraph} {ps : List WPath} {r : Ranking} {rk₀ : VId → Nat} {ord₀ : List VId} {m₀ : Nat}
    (h1 : collateRanked env ws { o with nearMatch := false } = .ok (indexed 0 ws, g, r))
    (C : Collated env.cc (indexed 0 ws) false g ps r rk₀ ord₀ m₀) :
    ∃ rk ord m, NearBase env.topo g rk ord m r ∧ Collated env.cc (indexed 0 ws) false g ps r rk ord m ∧
      collateRanked env ws o = (performNearMatch env.topo env.ratio g r).bind (fun p => .ok (indexed 0 ws, p.1, p.2)) := by
  unfold collateRanked at h1
  rw [if_neg (by simp [ho.astar])] at h1
  obtain ⟨q, hq, h1⟩ := bind_eq_ok.mp h1
  obtain ⟨r0, hr0, h1⟩ := bind_eq_ok.mp h1
  simp [ho.seg, bind_ok] at h1
  obtain ⟨e1, e2, e3⟩ := h1
  subst e2; subst e3
  obtain ⟨ord', rk', m', r', b1, b2, b3⟩ := rankingOf_base hts C.ginv.wf
  have hr : rankingOf env.topo q.2.g = .ok r' := by
    unfold rankingOf
    rw [b1]
    simp only [bind_ok, b2]
    exact nearPass_nil C.ginv.near _ _
  rw [hr0] at hr
  obtain rfl := Except.ok.inj hr
  have C' : Collated env.cc (indexed 0 ws) false q.2.g ps r0 rk' ord' m' :=
    ⟨C.ginv, C.readings, C.uniform, C.labelled, C.single, C.maximal, b3⟩
  have hne : indexed 0 ws ≠ [] := by
    intro h0
    have := congrArg List.length h0
    rw [indexed_length] at this
    exact hv.ne (List.length_eq_zero_iff.mp this)
  refine ⟨rk', ord', m', ⟨C.ginv.wf, C.ginv.near, b1, b2, b3, (C'.end_rank hne).1, C.ginv.end_mem⟩, C', ?_⟩
  unfold collateRanked
  rw [if_neg (by simp [ho.astar])]
  have hq' : collateGraph env.topo o.pfilter o.detect ws = .ok q := hq
  rw [hq']
  simp only [bind_ok, hr0, ho.near, ho.seg, if_true]
  rw [← e1]
  rfl

/-- Near matching starts from the graph collated without it. -/
theorem near_base (env : Env) (hts : TopoSpec env.topo) {ws : List Witness} (hv : Valid ws) {o : Opts} (ho : NearMatching o) :
    ∃ g ps r rk ord m, NearBase env.topo g rk ord m r ∧ Collated env.cc (indexed 0 ws) false g ps r rk ord m ∧
      collateRanked env ws { o with nearMatch := false } = .ok (indexed 0 ws, g, r) ∧
      collateRanked env ws o = (performNearMatch env.topo env.ratio g r).bind (fun p => .ok (indexed 0 ws, p.1, p.2)) := by
  obtain ⟨g, ps, r, rk, ord, m, h1, C⟩ := collateRanked_ok env hts hv { o with nearMatch := false } ho.astar ho.detect rfl
  have hseg : ({ o with nearMatch := false } : Opts).segmentation = false := ho.seg
  rw [hseg] at C
  obtain ⟨rk', ord', m', B, C', h2⟩ := near_base_of env hts hv ho h1 C
  exact ⟨g, ps, r, rk', ord', m', B, C', h1, h2⟩

/-- On a longest path the ranks count the steps, and all vertices are critical. -/
theorem longest_crit {env : Env} {ws : List Witness} {g : VGraph} {ps : List WPath} {r : Ranking} {rk : VId → Nat}
    {ord : List VId} {m : Nat} (C : Collated env.cc ws false g ps r rk ord m) (hne : ws ≠ []) {path : List VId}
    (hp : LongestPath g path) : ∀ (i : Nat) (v : VId), path[i]? = some v → rk v = i ∧ Crit g rk v := by
  have hwalk : ∃ n, Walk g.pairs startV endV n ∧ n = rk endV := by
    obtain ⟨⟨u, hu⟩, hmax⟩ := C.rank.isRank.longest C.ginv.wf C.ginv.end_mem
    have key : ∀ {u v : VId} {n : Nat}, Walk g.pairs u v n → v ∈ g.vertices → u ∈ g.vertices := by
      intro u v n hw
      induction hw with
      | nil => exact id
      | snoc _ he ih => intro _; exact ih (C.ginv.wf.ends _ he).1
    have hum : u ∈ g.vertices := key hu C.ginv.end_mem
    obtain ⟨⟨n, hn⟩, _⟩ := C.ginv.walks (C.ne hne) u hum
    have := hmax _ _ (hn.trans hu)
    have h0 : n = 0 := by omega
    subst h0
    cases hn
    exact ⟨_, hu, rfl⟩
  obtain ⟨n, hw, hn⟩ := hwalk
  have hlen := hp.longest n hw
  have hstep : ∀ (i : Nat) (u v : VId), path[i]? = some u → path[i + 1]? = some v → (u, v) ∈ g.pairs := by
    intro i u v h1 h2
    exact hp.edges u v (consec_iff_getElem.mpr ⟨i, h1, h2⟩)
  have hge : ∀ (i : Nat) (v : VId), path[i]? = some v → i ≤ rk v := by
    intro i
    induction i with
    | zero => intro v _; omega
    | succ i ih =>
      intro v hv
      have hlt := (List.getElem?_eq_some_iff.mp hv).1
      obtain ⟨u, hu⟩ : ∃ u, path[i]? = some u := ⟨_, List.getElem?_eq_getElem (by omega)⟩
      have := ih u hu
      have := C.lt (hstep i u v hu hv)
      omega
  have hlast : path[path.length - 1]? = some endV := by rw [← List.getLast?_eq_getElem?]; exact hp.last
  have hrl := hge _ _ hlast
  have key : ∀ (d i : Nat) (v : VId), i + d = path.length - 1 → path[i]? = some v → rk v = i ∧ Crit g rk v := by
    intro d
    induction d with
    | zero =>
      intro i v hi hv
      have : i = path.length - 1 := by omega
      subst this
      rw [hlast] at hv
      obtain rfl := Option.some.inj hv
      exact ⟨by omega, .last⟩
    | succ d ih =>
      intro i v hi hv
      obtain ⟨w, hw⟩ : ∃ w, path[i + 1]? = some w := ⟨_, List.getElem?_eq_getElem (by omega)⟩
      obtain ⟨h1, h2⟩ := ih (i + 1) w (by omega) hw
      have h3 := hge i v hv
      have h4 := C.lt (hstep i v w hv hw)
      exact ⟨by omega, .step (hstep i v w hv hw) h2 (by omega)⟩
  intro i v hv
  have := (List.getElem?_eq_some_iff.mp hv).1
  exact key (path.length - 1 - i) i v (by omega) hv

/-- C33. Near matching raises nothing. It does not touch vertices and edges. The ranks are listed in the order 0, 1, ...;
every vertex has exactly one rank and is listed exactly once, under this rank; and the vertices of a longest path from start
to end keep the rank they had without near matching, their distance from the start along that path. -/
theorem C33_near_matching (env : Env) (hts : TopoSpec env.topo) (ws : List Witness) (hv : Valid ws) (o : Opts)
    (ho : NearMatching o) :
    ∃ ws' g rk g₀ rk₀, collateRanked env ws o = .ok (ws', g, rk) ∧
      collateRanked env ws { o with nearMatch := false } = .ok (ws', g₀, rk₀) ∧
      g.nodes = g₀.nodes ∧ g.edges = g₀.edges ∧
      (rk.byVertex.map Prod.fst).Perm g.vertices ∧ rk.byRank.map Prod.fst = List.range rk.byRank.length ∧
      (∀ v ∈ g.vertices, ∃ k l, dget rk.byVertex v = some k ∧ (k, l) ∈ rk.byRank ∧
        ∀ k' l', (k', l') ∈ rk.byRank → l'.count v = if k' = k then 1 else 0) ∧
      ∀ path, LongestPath g path → ∀ (i : Nat) (v : VId), path[i]? = some v →
        dget rk.byVertex v = some i ∧ dget rk₀.byVertex v = some i := by
  obtain ⟨g, ps, r, rk, ord, m, B, C, h0, h1⟩ := near_base env hts hv ho
  obtain ⟨s, h2, n, f, h3, R, _, h5⟩ := performNearMatch_ok B env.ratio
  have hne : indexed 0 ws ≠ [] := by
    intro h0
    have := congrArg List.length h0
    rw [indexed_length] at this
    exact hv.ne (List.length_eq_zero_iff.mp this)
  obtain ⟨L, hbr, hnd, hmem⟩ := R.br
  have hlen : s.2.byRank.length = m := by rw [hbr]; simp
  rw [h2] at h1
  refine ⟨indexed 0 ws, s.1, s.2, g, r, h1, h0, ?_, ?_, ?_, ?_, ?_, ?_⟩
  · rw [h3]; rfl
  · rw [h3]; rfl
  · rw [h3, R.bv, keys_map_pair]; exact B.rank.topo.perm
  · rw [hlen, hbr, keys_map_pair]
  · intro v hvm
    rw [h3] at hvm
    have hvo := B.mem.mpr hvm
    refine ⟨f v, L (f v), ?_, ?_, ?_⟩
    · rw [R.bv]; exact dget_map_self f ord v hvo
    · rw [hbr]; exact List.mem_map.mpr ⟨f v, List.mem_range.mpr (R.lt v hvo), rfl⟩
    · intro k' l' hk
      rw [hbr] at hk
      obtain ⟨k, hk1, hk2⟩ := List.mem_map.mp hk
      have hkm := List.mem_range.mp hk1
      injection hk2 with hk2 hk3
      subst hk2; subst hk3
      by_cases he : k = f v
      · rw [if_pos he]
        exact List.count_eq_one_of_mem (hnd k hkm) ((hmem k hkm v).mpr ⟨hvo, he.symm⟩)
      · rw [if_neg he]
        exact List.count_eq_zero_of_not_mem (fun h => he ((hmem k hkm v).mp h).2.symm)
  · intro path hp i v hi
    rw [h3] at hp
    have hp' : LongestPath g path := ⟨hp.first, hp.last, hp.edges, hp.longest⟩
    obtain ⟨e1, e2⟩ := longest_crit C hne hp' i v hi
    have hvo : v ∈ ord := by
      have : path.length ≠ 0 := by
        have := (List.getElem?_eq_some_iff.mp hi).1
        omega
      cases e2 with
      | last => exact B.mem.mpr C.ginv.end_mem
      | step h _ _ => exact (B.ends _ h).1
    refine ⟨?_, ?_⟩
    · rw [R.bv, dget_map_self f ord v hvo, h5 v hvo e2, e1]
    · rw [C.rank.st.bv, dget_map_self rk ord v hvo, e1]

/-- C33. So there is an alignment table. -/
theorem C33_table (env : Env) (hts : TopoSpec env.topo) (ws : List Witness) (hv : Valid ws) (o : Opts)
    (ho : NearMatching o) : ∃ t, collateTable env ws o = .ok t := by
  obtain ⟨ws', g, rk, _, _, h, _⟩ := C33_near_matching env hts ws hv o ho
  refine ⟨mkTable ws' g rk, ?_⟩
  unfold collateTable
  rw [h]
  rfl

theorem columnLoop_withNear (g : VGraph) (n : List (VId × VId)) (a b : Nat) (vs : List VId) (c : Option Column) :
    columnLoop (g.withNear n) a b vs c = columnLoop g a b vs c := by
  induction vs generalizing c with
  | nil => rfl
  | cons v vs ih =>
    simp only [columnLoop, ih]
    rfl

theorem mkTable_withNear (ws : Collation) (g : VGraph) (n : List (VId × VId)) (r : Ranking) :
    mkTable ws (g.withNear n) r = mkTable ws g r := by
  unfold mkTable
  simp only [columnLoop_withNear]

/-- C34 for at most two witnesses (what is missing: three or more witnesses, for which the claim is false, see
`C34_three_witnesses`). With `near_match=True` every row of the alignment table still holds every token of its witness,
in order, whatever the similarity function. -/
theorem C34_two_witnesses_partial (env : Env) (hts : TopoSpec env.topo) (ws : List Witness) (hv : Valid ws)
    (h2 : ws.length ≤ 2) (o : Opts) (ho : NearMatching o) :
    ∃ t, collateTable env ws o = .ok t ∧ t.rows.map Row.header = ws.map Witness.sigil ∧
      ∀ (k : Nat) (w : Witness) (row : Row), ws[k]? = some w → w.sigil ≠ [] → t.rows[k]? = some row →
        List.Forall₂ SameToken w.tokens (row.cells.filterMap id).flatten := by
  obtain ⟨g, ps, r, rk, ord, m, B, C, h0, h1⟩ := near_base env hts hv ho
  have hne : indexed 0 ws ≠ [] := by
    intro h0
    have := congrArg List.length h0
    rw [indexed_length] at this
    exact hv.ne (List.length_eq_zero_iff.mp this)
  obtain ⟨n, r', f, h3, R, hinc, _, _⟩ := performNearMatch_two B C.ginv (C.ne hne)
    (atMostTwo_of_length (by rw [C.length, indexed_length]; exact h2)) env.ratio
  rw [h3] at h1
  refine ⟨mkTable (indexed 0 ws) g r', ?_, ?_, ?_⟩
  · unfold collateTable
    rw [h1]
    show Except.ok _ = _
    rw [mkTable_withNear]
  · rw [mkTable_rows, List.map_map, ← indexed_sigla 0 ws]; rfl
  · intro k w row hw hs hr
    obtain ⟨w', hw', _, hcells⟩ := row_at hr
    obtain ⟨w0, hw0, hsig, _⟩ := indexed_strs ws hw'
    rw [hw] at hw0
    obtain rfl := Option.some.inj hw0
    obtain ⟨p, hp, hps, htext⟩ := C.at hw'
    have hpm := List.mem_of_getElem? hp
    obtain ⟨L, hbr, hnd, hmem⟩ := R.br
    have hby : ByRank g f m L r' := ⟨hbr, hnd, fun k hk v => by rw [hmem k hk v, B.mem],
      fun v hv => R.lt v (B.mem.mpr hv)⟩
    have hinner : p.inner.Pairwise (fun u v => f u < f v) := by
      have h := C.ginv.path_increasing hinc hpm
      unfold WPath.path at h
      exact (List.pairwise_append.mp (List.pairwise_cons.mp h).2).1
    have hrow := hby.row C.ginv hpm (by rw [hps, hsig]; exact hs) hinner (indexed 0 ws)
    rw [hps] at hrow
    rw [hcells, hrow]
    have hflat : (p.segs.map Prod.snd).flatten = w'.tokens := by
      rw [← htext]; unfold WPath.text; rw [List.flatMap_def]
    rw [hflat]
    exact sameTokens_at h0 hw hw'

/-! ### Three witnesses -/

/-- Length of a longest common subsequence. -/
def lcsLen : Str → Str → Nat
  | [], _ => 0
  | a :: as, b => max (lcsLen as b) (match b.dropWhile (· ≠ a) with | [] => 0 | _ :: b' => lcsLen as b' + 1)

/-- `Levenshtein.ratio` in millionths: twice the longest common subsequence over the sum of the lengths. -/
def indelRatio (a b : Str) : Nat := 2 * lcsLen a b * 1000000 / (a.length + b.length)

/-- The environment of the examples of this file. -/
def nearEnv : Env := ⟨asciiClass, kahn, indelRatio⟩

/-- A witness with the given words. -/
def wordsWitness (σ : String) (l : List String) : Witness := ⟨S σ, l.map (fun x => ⟨S x, []⟩)⟩

theorem valid_of_check {ws : List Witness} (h1 : ws ≠ []) (h2 : ∀ w ∈ ws, w.tokens ≠ [] ∧ w.tokens.length < 1000000000)
    (h3 : (ws.map Witness.sigil).Nodup) (h4 : ∀ w ∈ ws, ∀ t ∈ w.tokens, t.str.head? ≠ some '$') : Valid ws := by
  refine ⟨h1, h2, h3, ?_⟩
  intro w hw t ht hsep
  obtain ⟨i, _, h⟩ := hsep
  exact h4 w hw t ht (by rw [h]; rfl)

/-- `x1 x2 w yyyy v`, `yyyz w yyyy v`, `yyyz v`. -/
def losingWitnesses : List Witness :=
  [wordsWitness "A" ["x1", "x2", "w", "yyyy", "v"], wordsWitness "B" ["yyyz", "w", "yyyy", "v"], wordsWitness "C" ["yyyz", "v"]]

theorem losingWitnesses_valid : Valid losingWitnesses :=
  valid_of_check (by decide) (by decide) (by decide) (by decide)

/-- C34 is false for three witnesses: `yyyz` is moved from the first column past its successor `w` in B, into the column of
`yyyy`, which is also in B; the row of B loses `yyyy`. -/
theorem C34_three_witnesses : Valid losingWitnesses ∧
    (collateTable nearEnv losingWitnesses { segmentation := false, nearMatch := true }).map tableSummary =
      .ok ⟨[true, true, true, true, false], [S "A", S "B", S "C"],
        [[some [S "x1"], some [S "x2"], some [S "w"], some [S "yyyy"], some [S "v"]],
         [none, none, some [S "w"], some [S "yyyz"], some [S "v"]],
         [none, none, none, some [S "yyyz"], some [S "v"]]]⟩ ∧
    ¬ ∀ (env : Env) (ws : List Witness) (o : Opts) (t : Table), TopoSpec env.topo → Valid ws → NearMatching o →
      collateTable env ws o = .ok t → ∀ (k : Nat) (w : Witness) (row : Row), ws[k]? = some w → w.sigil ≠ [] →
        t.rows[k]? = some row → List.Forall₂ SameToken w.tokens (row.cells.filterMap id).flatten := by
  have key : (collateTable nearEnv losingWitnesses { segmentation := false, nearMatch := true }).map
      (fun t => t.rows[1]?.map (fun r => (r.cells.filterMap id).flatten.length)) = .ok (some 3) := by decide +kernel
  refine ⟨losingWitnesses_valid, by decide +kernel, ?_⟩
  intro h
  cases ht : collateTable nearEnv losingWitnesses { segmentation := false, nearMatch := true } with
  | error e => rw [ht] at key; cases key
  | ok t =>
    rw [ht] at key
    have key := Except.ok.inj key
    obtain ⟨row, h1, h2⟩ := Option.map_eq_some_iff.mp key
    have := (h nearEnv losingWitnesses _ t kahn_spec losingWitnesses_valid ⟨rfl, rfl, rfl, rfl⟩ ht 1
      (wordsWitness "B" ["yyyz", "w", "yyyy", "v"]) row rfl (by decide) h1).length_eq
    rw [h2] at this
    cases this

/-! ### Examples -/

/-- Two witnesses of the repository's tests (tests/test_near_matching.py 43–53). -/
def dogWitnesses : List Witness :=
  [wordsWitness "A" ["over", "this", "dog"], wordsWitness "B" ["over", "there", "that", "dog"]]

/-- The hypotheses are met, and `this` is moved to the column of `that`. -/
example : TopoSpec nearEnv.topo ∧ Valid dogWitnesses ∧ dogWitnesses.length ≤ 2 ∧
    NearMatching { segmentation := false, nearMatch := true } ∧
    (collateTable nearEnv dogWitnesses { segmentation := false, nearMatch := true }).map tableSummary =
      .ok ⟨[false, true, true, false], [S "A", S "B"],
        [[some [S "over"], none, some [S "this"], some [S "dog"]],
         [some [S "over"], some [S "there"], some [S "that"], some [S "dog"]]]⟩ ∧
    (collateTable nearEnv dogWitnesses { segmentation := false }).map tableSummary =
      .ok ⟨[false, true, true, false], [S "A", S "B"],
        [[some [S "over"], some [S "this"], none, some [S "dog"]],
         [some [S "over"], some [S "there"], some [S "that"], some [S "dog"]]]⟩ :=
  ⟨kahn_spec, valid_of_check (by decide) (by decide) (by decide) (by decide), by decide, ⟨rfl, rfl, rfl, rfl⟩,
    by decide +kernel, by decide +kernel⟩

/-- A longest path of the graph of these witnesses, as in C33. -/
example : (collateRanked nearEnv dogWitnesses { segmentation := false, nearMatch := true }).map
    (fun r => (r.2.1.pairs, r.2.1.near, r.2.2.byVertex)) =
    .ok ([(0, 2), (2, 3), (3, 4), (4, 1), (2, 5), (5, 6), (6, 4)], [(6, 3)], [(0, 0), (2, 1), (3, 3), (5, 2), (6, 3), (4, 4), (1, 5)]) := by
  decide +kernel

end CollateX
