import Verif.Props.Ranking
import Verif.Props.Table
/-
C20 and C21 for the ranking that `collate` uses, and the columns of the table: C21 and C27.
-/

namespace CollateX
open Spec

section
variable {cc : CharClass} {ws : List Witness} {seg : Bool} {g : VGraph} {ps : List WPath} {rk : Ranking} {rkf : VId → Nat}
  {ord : List VId} {m : Nat}

theorem Collated.ne (C : Collated cc ws seg g ps rk rkf ord m) (hv : ws ≠ []) : ps ≠ [] := by
  intro h0
  have := C.length
  rw [h0] at this
  exact hv (List.length_eq_zero_iff.mp this.symm)

theorem Collated.lt (C : Collated cc ws seg g ps rk rkf ord m) {u v : VId} (h : (u, v) ∈ g.pairs) : rkf u < rkf v :=
  C.rank.isRank.lt C.ginv.wf h

theorem Collated.start_rank (C : Collated cc ws seg g ps rk rkf ord m) (hv : ws ≠ []) {v : VId} (hm : v ∈ g.vertices) :
    rkf v = 0 ↔ v = startV := by
  have hb := C.ginv.rank_bounds (C.ne hv) (h := rkf) (fun p hp => C.lt (u := p.1) (v := p.2) hp)
  constructor
  · intro h0
    by_contra hne
    have := (hb v hm).1 hne
    omega
  · rintro rfl
    by_contra hne
    obtain ⟨u, hu, hr⟩ := C.rank.isRank.pred hm (by omega)
    have hu' := (C.ginv.wf.ends _ hu).1
    by_cases hus : u = startV
    · subst hus; omega
    · have := (hb u hu').1 hus
      omega

theorem Collated.end_rank (C : Collated cc ws seg g ps rk rkf ord m) (hv : ws ≠ []) :
    m = rkf endV + 1 ∧ ∀ v ∈ g.vertices, rkf v = rkf endV → v = endV := by
  have hb := C.ginv.rank_bounds (C.ne hv) (h := rkf) (fun p hp => C.lt (u := p.1) (v := p.2) hp)
  constructor
  · have h1 := C.rank.lt_m C.ginv.end_mem
    obtain ⟨v, hvo, he⟩ := C.rank.st.ne (m - 1) (by omega)
    have hvm := C.rank.topo.perm.mem_iff.mp hvo
    by_cases hve : v = endV
    · subst hve; omega
    · have := (hb v hvm).2 hve
      omega
  · intro v hm he
    by_contra hne
    have := (hb v hm).2 hne
    omega

theorem filterMap_middle {β : Type} (f : Nat → Option β) (n : Nat) (h0 : f 0 = none) (hn : f (n + 1) = none)
    (hs : ∀ k, 1 ≤ k → k ≤ n → (f k).isSome) :
    ((List.range (n + 2)).filterMap f).length = n ∧ ∀ j < n, ((List.range (n + 2)).filterMap f)[j]? = f (j + 1) := by
  have key : ∀ (n a : Nat), (∀ k, a ≤ k → k < a + n → (f k).isSome) →
      ((List.range' a n).filterMap f).length = n ∧ ∀ j < n, ((List.range' a n).filterMap f)[j]? = f (a + j) := by
    intro n
    induction n with
    | zero => intro a _; simp
    | succ n ih =>
      intro a ha
      obtain ⟨b, hb⟩ := Option.isSome_iff_exists.mp (ha a (Nat.le_refl _) (by omega))
      obtain ⟨i1, i2⟩ := ih (a + 1) (fun k h1 h2 => ha k (by omega) (by omega))
      rw [List.range'_succ, List.filterMap_cons_some hb]
      refine ⟨by simp [i1], ?_⟩
      intro j hj
      cases j with
      | zero => simp [hb]
      | succ j =>
        rw [List.getElem?_cons_succ, i2 j (by omega)]
        congr 1
        omega
  have e : (List.range (n + 2)).filterMap f = (List.range' 1 n).filterMap f := by
    rw [List.range_succ, List.filterMap_append, List.range_eq_range', List.range'_succ, List.filterMap_cons_none h0]
    simp [hn]
  rw [e]
  obtain ⟨k1, k2⟩ := key n 1 (fun k h1 h2 => hs k h1 (by omega))
  exact ⟨k1, fun j hj => by rw [k2 j hj, Nat.add_comm]⟩

/-- Each rank between start and end has its column. -/
theorem Collated.columns_at (C : Collated cc ws seg g ps rk rkf ord m) (hv : ws ≠ []) :
    (mkTable ws g rk).columns.length + 1 = rkf endV ∧ ∀ j < (mkTable ws g rk).columns.length,
      (mkTable ws g rk).columns[j]? = colAt g ws.length (fun k => ord.filter (fun v => rkf v = k)) (j + 1) := by
  obtain ⟨hm, hend⟩ := C.end_rank hv
  have hpos : 0 < rkf endV := by
    have : startV ≠ endV := by decide
    have hb := C.ginv.rank_bounds (C.ne hv) (h := rkf) (fun p hp => C.lt (u := p.1) (v := p.2) hp)
    have := (hb _ C.ginv.start_mem).2 this
    omega
  obtain ⟨n, hn⟩ : ∃ n, rkf endV = n + 1 := ⟨rkf endV - 1, by omega⟩
  have hcols := C.byRank.columns ws
  rw [hm, hn] at hcols
  have hnone : ∀ k, (∀ v ∈ g.vertices, rkf v = k → v = startV ∨ v = endV) →
      colAt g ws.length (fun k => ord.filter (fun v => rkf v = k)) k = none := by
    intro k hk
    rw [← Option.not_isSome_iff_eq_none, Option.isSome_iff_exists]
    intro hex
    obtain ⟨v, hvL, hi⟩ := colAt_isSome.mp hex
    obtain ⟨hvo, hvk⟩ := List.mem_filter.mp hvL
    simp only [decide_eq_true_eq] at hvk
    simp only [inside, decide_eq_true_eq] at hi
    rcases hk v (C.rank.topo.perm.mem_iff.mp hvo) hvk with h | h
    · exact hi.1 h
    · exact hi.2 h
  obtain ⟨h1, h2⟩ := filterMap_middle (colAt g ws.length (fun k => ord.filter (fun v => rkf v = k))) n
    (hnone 0 (fun v hvm h0 => Or.inl ((C.start_rank hv hvm).mp h0)))
    (hnone (n + 1) (fun v hvm h0 => Or.inr (hend v hvm (by omega)))) (by
      intro k hk1 hk2
      rw [Option.isSome_iff_exists]
      apply colAt_isSome.mpr
      obtain ⟨v, hvo, he⟩ := C.rank.st.ne k (by omega)
      refine ⟨v, List.mem_filter.mpr ⟨hvo, by simpa using he⟩, ?_⟩
      have hvm := C.rank.topo.perm.mem_iff.mp hvo
      simp only [inside, decide_eq_true_eq]
      refine ⟨?_, ?_⟩
      · rintro rfl
        have := (C.start_rank hv hvm).mpr rfl
        omega
      · rintro rfl
        omega)
  have hcols' : (mkTable ws g rk).columns =
      (List.range (n + 2)).filterMap (colAt g ws.length (fun k => ord.filter (fun v => rkf v = k))) := hcols
  rw [hcols']
  refine ⟨by omega, ?_⟩
  intro j hj
  exact h2 j (by omega)

end

/-- C20, for the ranking that `collate` uses: with or without segmentation, the rank of each vertex is the length of a longest
walk from the start to it, and every edge increases the rank. -/
theorem C20_of_collation (env : Env) (hts : TopoSpec env.topo) (ws ws' : List Witness) (hv : Valid ws)
    (o : Opts) (ho : ExactMatching o) (g : VGraph) (rk : Ranking) (h : collateRanked env ws o = .ok (ws', g, rk)) :
    (∀ v ∈ g.vertices, ∃ k, dget rk.byVertex v = some k ∧ Walk g.pairs startV v k ∧ ∀ n, Walk g.pairs startV v n → n ≤ k) ∧
    ∀ p ∈ g.pairs, ∃ a b, dget rk.byVertex p.1 = some a ∧ dget rk.byVertex p.2 = some b ∧ a < b := by
  obtain ⟨rfl, ps, rkf, ord, m, C⟩ := collated_of env hts hv ho h
  have hne : indexed 0 ws ≠ [] := by
    intro h0
    have := congrArg List.length h0
    rw [indexed_length] at this
    exact hv.ne (List.length_eq_zero_iff.mp this)
  have hwf := C.ginv.wf
  refine ⟨?_, ?_⟩
  · intro v hvm
    have hl := C.rank.isRank.longest hwf hvm
    refine ⟨rkf v, C.rank.byVertex hvm, ?_, fun n hn => hl.2 _ n hn⟩
    obtain ⟨u, hu⟩ := hl.1
    have hum : u ∈ g.vertices := by
      have : ∀ {a b : VId} {n : Nat}, Walk g.pairs a b n → b ∈ g.vertices → a ∈ g.vertices := by
        intro a b n hw
        induction hw with
        | nil => exact id
        | snoc _ he ih => intro _; exact ih (hwf.ends _ he).1
      exact this hu hvm
    obtain ⟨n, hn⟩ := (C.ginv.walks (C.ne hne) u hum).1
    have hlen := hl.2 _ _ (Walk.trans hn hu)
    have : n = 0 := by omega
    subst this
    cases hn
    exact hu
  · intro p hp
    have he := hwf.ends p hp
    exact ⟨_, _, C.rank.byVertex he.1, C.rank.byVertex he.2, C.lt (u := p.1) (v := p.2) hp⟩

/-- C21, for the ranking that `collate` uses: the ranks are listed in the order 0, 1, ... up to the rank of the end vertex, under
each rank its vertices (at least one, each once), under the first only the start vertex and under the last only the end
vertex. The columns of the table are the ranks between, in order: column `j` has for each witness the tokens it has on a vertex of
rank `j + 1`. -/
theorem C21_of_collation (env : Env) (hts : TopoSpec env.topo) (ws ws' : List Witness) (hv : Valid ws)
    (hs : ∀ w ∈ ws, w.sigil ≠ []) (o : Opts) (ho : ExactMatching o) (g : VGraph) (rk : Ranking)
    (h : collateRanked env ws o = .ok (ws', g, rk)) :
    ∃ e, dget rk.byVertex endV = some e ∧ rk.byRank.map Prod.fst = List.range (e + 1) ∧
      (∀ k vs, (k, vs) ∈ rk.byRank → vs ≠ [] ∧ vs.Nodup ∧ ∀ v, v ∈ vs ↔ v ∈ g.vertices ∧ dget rk.byVertex v = some k) ∧
      (0, [startV]) ∈ rk.byRank ∧ (e, [endV]) ∈ rk.byRank ∧
      (mkTable ws' g rk).columns.length + 1 = e ∧
      ∀ (j : Nat) (c : Column), (mkTable ws' g rk).columns[j]? = some c → ∀ σ ts, dget c.tokens σ = some ts ↔
        ∃ v ∈ g.vertices, dget rk.byVertex v = some (j + 1) ∧ CarriesAt g v σ ts := by
  obtain ⟨rfl, ps, rkf, ord, m, C⟩ := collated_of env hts hv ho h
  have hne : indexed 0 ws ≠ [] := by
    intro h0
    have := congrArg List.length h0
    rw [indexed_length] at this
    exact hv.ne (List.length_eq_zero_iff.mp this)
  have hs' := indexed_sigil_ne hs
  have hsp := C.sigil_ne hs'
  obtain ⟨hm, hend⟩ := C.end_rank hne
  have hnd := C.rank.topo.perm.nodup_iff.mpr C.ginv.nd
  have hmem : ∀ k v, v ∈ ord.filter (fun v => rkf v = k) ↔ v ∈ g.vertices ∧ dget rk.byVertex v = some k := by
    intro k v
    rw [List.mem_filter, C.rank.topo.perm.mem_iff]
    constructor
    · rintro ⟨h1, h2⟩
      simp only [decide_eq_true_eq] at h2
      exact ⟨h1, by rw [C.rank.byVertex h1, h2]⟩
    · rintro ⟨h1, h2⟩
      rw [C.rank.byVertex h1] at h2
      exact ⟨h1, by simpa using h2⟩
  have hsingle : ∀ k a, a ∈ g.vertices → (∀ v ∈ g.vertices, rkf v = k ↔ v = a) → ord.filter (fun v => rkf v = k) = [a] := by
    intro k a ha hk
    have h1 : ∀ v ∈ ord.filter (fun v => rkf v = k), v = a := by
      intro v hv
      obtain ⟨h1, h2⟩ := List.mem_filter.mp hv
      exact (hk v (C.rank.topo.perm.mem_iff.mp h1)).mp (by simpa using h2)
    have h2 : a ∈ ord.filter (fun v => rkf v = k) :=
      List.mem_filter.mpr ⟨C.rank.topo.perm.mem_iff.mpr ha, by simpa using (hk a ha).mpr rfl⟩
    have h3 := hnd.filter (fun v => decide (rkf v = k))
    generalize ord.filter (fun v => rkf v = k) = l at h1 h2 h3
    match l with
    | [] => cases h2
    | [x] => rw [h1 x (by simp)]
    | x :: y :: l =>
      have hx := h1 x (by simp)
      have hy := h1 y (by simp)
      rw [hx, hy] at h3
      simp at h3
  have hbr : ∀ k, k < m → (k, ord.filter (fun v => rkf v = k)) ∈ rk.byRank := by
    intro k hk
    rw [C.rank.st.br]
    exact List.mem_map.mpr ⟨k, List.mem_range.mpr hk, rfl⟩
  refine ⟨rkf endV, C.rank.byVertex C.ginv.end_mem, ?_, ?_, ?_, ?_, (C.columns_at hne).1, ?_⟩
  · rw [C.rank.st.br, keys_map_pair, hm]
  · intro k vs hk
    rw [C.rank.st.br] at hk
    obtain ⟨k', hk', he⟩ := List.mem_map.mp hk
    simp only [Prod.mk.injEq] at he
    obtain ⟨rfl, rfl⟩ := he
    refine ⟨?_, hnd.filter _, hmem k'⟩
    obtain ⟨v, hvo, he⟩ := C.rank.st.ne k' (List.mem_range.mp hk')
    exact List.ne_nil_of_mem (List.mem_filter.mpr ⟨hvo, by simpa using he⟩)
  · have := hbr 0 (by omega)
    rw [hsingle 0 startV C.ginv.start_mem (fun v hv => C.start_rank hne hv)] at this
    exact this
  · have := hbr (rkf endV) (by omega)
    rw [hsingle (rkf endV) endV C.ginv.end_mem (fun v hv => ⟨hend v hv, fun h => by rw [h]⟩)] at this
    exact this
  · intro j c hc σ ts
    have hj := (List.getElem?_eq_some_iff.mp hc).1
    obtain ⟨hlen, hat⟩ := C.columns_at hne
    rw [hat j hj] at hc
    have hjm : j + 1 < m := by omega
    constructor
    · intro hd
      obtain ⟨p, hp, rfl⟩ := (C.byRank.col_keys C.ginv hsp hjm hc).1 σ (List.mem_map.mpr ⟨_, dget_mem hd, rfl⟩)
      obtain ⟨v, hvL, hseg⟩ := C.byRank.col_entry C.ginv hsp hjm hc hp hd
      obtain ⟨hvm, hvr⟩ := (hmem _ _).mp hvL
      refine ⟨v, hvm, hvr, ?_⟩
      obtain ⟨x, hx⟩ := exists_dget_of_mem_keys (hvm : v ∈ g.nodes.map Prod.fst)
      exact ⟨x, hx, (C.ginv.tok v x hx _ (hsp p hp) ts).mpr ⟨p, hp, rfl, hseg⟩⟩
    · rintro ⟨v, hvm, hvr, x, hx, hd⟩
      have htk : dget (g.toks v) σ = some ts := by
        unfold VGraph.toks
        rw [hx]
        exact hd
      obtain ⟨p, hp, rfl, hseg⟩ := (C.ginv.toks_iff hsp).mp htk
      have := (C.byRank.cell C.ginv hp (hsp p hp) (C.inner_increasing hp) (indexed 0 ws).length hjm ts).mpr
        ⟨_, hseg, by rw [C.rank.byVertex hvm] at hvr; simpa using hvr, rfl⟩
      rw [hc] at this
      exact this

/-- C27, exactly: a column is not variant if and only if a single vertex of the graph has this rank and all witnesses have tokens on
it. -/
theorem C27_variant_iff (env : Env) (hts : TopoSpec env.topo) (ws ws' : List Witness) (hv : Valid ws)
    (hs : ∀ w ∈ ws, w.sigil ≠ []) (o : Opts) (ho : ExactMatching o) (g : VGraph) (rk : Ranking)
    (h : collateRanked env ws o = .ok (ws', g, rk)) (j : Nat) (c : Column) (hc : (mkTable ws' g rk).columns[j]? = some c) :
    c.variant = false ↔ (∃ v, ∀ u ∈ g.vertices, dget rk.byVertex u = some (j + 1) ↔ u = v) ∧
      ∀ w ∈ ws, ∃ ts, dget c.tokens w.sigil = some ts := by
  obtain ⟨rfl, ps, rkf, ord, m, C⟩ := collated_of env hts hv ho h
  have hne : indexed 0 ws ≠ [] := by
    intro h0
    have := congrArg List.length h0
    rw [indexed_length] at this
    exact hv.ne (List.length_eq_zero_iff.mp this)
  have hs' := indexed_sigil_ne hs
  have hsp := C.sigil_ne hs'
  have hnd := C.rank.topo.perm.nodup_iff.mpr C.ginv.nd
  have hj := (List.getElem?_eq_some_iff.mp hc).1
  obtain ⟨hlen, hat⟩ := C.columns_at hne
  rw [hat j hj] at hc
  have hjm : j + 1 < m := by have := (C.end_rank hne).1; omega
  have hmem : ∀ v, v ∈ ord.filter (fun v => rkf v = j + 1) ↔ v ∈ g.vertices ∧ dget rk.byVertex v = some (j + 1) := by
    intro v
    rw [List.mem_filter, C.rank.topo.perm.mem_iff]
    constructor
    · rintro ⟨h1, h2⟩
      simp only [decide_eq_true_eq] at h2
      exact ⟨h1, by rw [C.rank.byVertex h1, h2]⟩
    · rintro ⟨h1, h2⟩
      rw [C.rank.byVertex h1] at h2
      exact ⟨h1, by simpa using h2⟩
  have hsig : ps.map WPath.sigil = ws.map Witness.sigil := by rw [C.sigils, indexed_sigla]
  have hkeys : ∀ σ ∈ c.tokens.map Prod.fst, σ ∈ ws.map Witness.sigil := by
    intro σ hσ
    obtain ⟨p, hp, rfl⟩ := (C.byRank.col_keys C.ginv hsp hjm hc).1 σ hσ
    rw [← hsig]
    exact List.mem_map.mpr ⟨p, hp, rfl⟩
  have hcn := colAt_nodup hc
  have hex : ∃ v ∈ ord.filter (fun v => rkf v = j + 1), inside v = true := colAt_isSome.mp ⟨c, hc⟩
  have hvar : c.variant = false ↔ (ord.filter (fun v => rkf v = j + 1)).length ≤ 1 ∧ c.tokens.length = (indexed 0 ws).length := by
    unfold colAt at hc
    rw [columnLoop_eq] at hc
    split at hc
    · cases hc
    · injection hc with hc
      rw [← hc]
      simp
  rw [hvar, indexed_length]
  have hone : (ord.filter (fun v => rkf v = j + 1)).length ≤ 1 ↔ ∃ v, ∀ u ∈ g.vertices, dget rk.byVertex u = some (j + 1) ↔ u = v := by
    obtain ⟨v, hvm, _⟩ := hex
    constructor
    · intro hl
      refine ⟨v, fun u hu => ?_⟩
      constructor
      · intro hd
        have hum := (hmem u).mpr ⟨hu, hd⟩
        generalize ord.filter (fun v => rkf v = j + 1) = l at hl hvm hum
        match l with
        | [] => cases hvm
        | [x] => rw [List.mem_singleton.mp hvm, List.mem_singleton.mp hum]
        | x :: y :: l => simp at hl
      · rintro rfl
        exact ((hmem u).mp hvm).2
    · rintro ⟨a, ha⟩
      have h1 : ∀ u ∈ ord.filter (fun v => rkf v = j + 1), u = a := fun u hu =>
        (ha u ((hmem u).mp hu).1).mp ((hmem u).mp hu).2
      have h3 := hnd.filter (fun v => decide (rkf v = j + 1))
      generalize ord.filter (fun v => rkf v = j + 1) = l at h1 h3
      match l with
      | [] => simp
      | [x] => simp
      | x :: y :: l =>
        have hx := h1 x (by simp)
        have hy := h1 y (by simp)
        rw [hx, hy] at h3
        simp at h3
  rw [hone]
  apply and_congr_right
  intro _
  constructor
  · intro hl w hw
    apply exists_dget_of_mem_keys
    exact subset_of_length hcn hkeys (by simpa using hl) _ (List.mem_map.mpr ⟨w, hw, rfl⟩)
  · intro hall
    have h1 := nodup_length_le hcn hkeys
    have h2 := nodup_length_le hv.sigla (m := c.tokens.map Prod.fst) (by
      intro σ hσ
      obtain ⟨w, hw, rfl⟩ := List.mem_map.mp hσ
      obtain ⟨ts, hts⟩ := hall w hw
      exact List.mem_map.mpr ⟨_, dget_mem hts, rfl⟩)
    simp only [List.length_map] at h1 h2
    omega

/-- Not trivial: three witnesses, five columns without segmentation, of which the first and the last are not variant. -/
example : TopoSpec exampleEnv.topo ∧ Valid threeWitnesses ∧ (∀ w ∈ threeWitnesses, w.sigil ≠ []) ∧
    ExactMatching { segmentation := false } ∧
    (collateRanked exampleEnv threeWitnesses { segmentation := false }).map
      (fun r => (r.2.2.byVertex, r.2.2.byRank, (mkTable r.1 r.2.1 r.2.2).columns.map Column.variant)) =
        .ok ([(0, 0), (2, 1), (5, 2), (6, 3), (3, 4), (4, 5), (1, 6)],
          [(0, [0]), (1, [2]), (2, [5]), (3, [6]), (4, [3]), (5, [4]), (6, [1])], [false, true, true, true, false]) :=
  ⟨kahn_spec, threeWitnesses_valid, by decide, ⟨rfl, rfl, rfl⟩, by decide +kernel⟩

end CollateX
