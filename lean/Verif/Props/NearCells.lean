import Verif.Proofs.NearRange
import Verif.Props.Near
/-
C55, C56: what near matching does to the alignment table, and where it puts a vertex.
-/

namespace CollateX
open Spec

/-- The columns of a table by ranks that leave the vertices of a longest path where they are. -/
theorem near_columns {ts : TopoFn} {cc : CharClass} {ws : List Witness} {g : VGraph} {ps : List WPath} {r r' : Ranking} {rk f : VId → Nat}
    {ord : List VId} {m : Nat} (B : NearBase ts g rk ord m r) (C : Collated cc ws false g ps r rk ord m) (hne : ws ≠ [])
    (R : RankedBy ord f m r') (hcrit : ∀ c ∈ ord, Crit g rk c → f c = rk c)
    (hin : ∀ v ∈ ord, v ≠ startV → v ≠ endV → 0 < f v ∧ f v + 1 < m) :
    ∃ L, ByRank g f m L r' ∧ (mkTable ws g r').columns.length = (mkTable ws g r).columns.length ∧
      (mkTable ws g r').columns.length + 2 = m ∧
      ∀ j < (mkTable ws g r').columns.length, (mkTable ws g r').columns[j]? = colAt g ws.length L (j + 1) := by
  obtain ⟨hm, hend⟩ := C.end_rank hne
  have hb := C.ginv.rank_bounds (C.ne hne) (h := rk) (fun p hp => C.lt (u := p.1) (v := p.2) hp)
  have hpos : 0 < rk endV := by
    have : startV ≠ endV := by decide
    have := (hb _ C.ginv.start_mem).2 this
    omega
  have hs0 := (C.start_rank hne C.ginv.start_mem).mpr rfl
  obtain ⟨L, hbr, hnd, hmem⟩ := R.br
  have hby : ByRank g f m L r' := ⟨hbr, hnd, fun k hk v => by rw [hmem k hk v, B.mem], fun v hv => R.lt v (B.mem.mpr hv)⟩
  obtain ⟨d, hd⟩ : ∃ d, rk endV = d + 1 := ⟨rk endV - 1, by omega⟩
  have hcols := hby.columns ws
  have hmd : m = d + 2 := by omega
  rw [hmd] at hcols
  have hnone : ∀ k, (∀ v ∈ ord, f v = k → v = startV ∨ v = endV) → k < m → colAt g ws.length L k = none := by
    intro k hk hkm
    rw [← Option.not_isSome_iff_eq_none, Option.isSome_iff_exists]
    intro hex
    obtain ⟨v, hvL, hi⟩ := colAt_isSome.mp hex
    obtain ⟨hvo, hvk⟩ := (hmem k hkm v).mp hvL
    simp only [inside, decide_eq_true_eq] at hi
    rcases hk v hvo hvk with h | h
    · exact hi.1 h
    · exact hi.2 h
  obtain ⟨k1, k2⟩ := filterMap_middle (colAt g ws.length L) d
    (hnone 0 (by
      intro v hvo hf
      by_contra hc
      rw [not_or] at hc
      have := (hin v hvo hc.1 hc.2).1
      omega) (by omega))
    (hnone (d + 1) (by
      intro v hvo hf
      by_contra hc
      rw [not_or] at hc
      have := (hin v hvo hc.1 hc.2).2
      omega) (by omega))
    (by
      intro k hk1 hk2
      rw [Option.isSome_iff_exists]
      apply colAt_isSome.mpr
      obtain ⟨c, hc, c1, c2⟩ := B.level k (by omega)
      refine ⟨c, (hmem k (by omega) c).mpr ⟨hc, by rw [hcrit c hc c1, c2]⟩, ?_⟩
      simp only [inside, decide_eq_true_eq]
      refine ⟨?_, ?_⟩
      · rintro rfl; omega
      · rintro rfl; omega)
  have hlen0 := (C.columns_at hne).1
  rw [← hcols] at k1 k2
  exact ⟨L, hby, by omega, by omega, fun j hj => k2 j (by omega)⟩

/-- The table with near matching, by ranks: the columns belong to the ranks `1 .. n`. -/
theorem near_table (env : Env) (hts : TopoSpec env.topo) {ws : List Witness} (hv : Valid ws) {o : Opts} (ho : NearMatching o) :
    ∃ g ps r rk ord m f r' L, Collated env.cc (indexed 0 ws) false g ps r rk ord m ∧
      collateRanked env ws { o with nearMatch := false } = .ok (indexed 0 ws, g, r) ∧
      collateTable env ws o = .ok (mkTable (indexed 0 ws) g r') ∧ ByRank g f m L r' ∧
      (mkTable (indexed 0 ws) g r').columns.length = (mkTable (indexed 0 ws) g r).columns.length ∧
      (mkTable (indexed 0 ws) g r').columns.length + 2 = m ∧
      ∀ j < (mkTable (indexed 0 ws) g r').columns.length,
        (mkTable (indexed 0 ws) g r').columns[j]? = colAt g (indexed 0 ws).length L (j + 1) := by
  obtain ⟨g, ps, r, rk, ord, m, B, C, h0, h1⟩ := near_base env hts hv ho
  have hne : indexed 0 ws ≠ [] := by
    intro h0
    have := congrArg List.length h0
    rw [indexed_length] at this
    exact hv.ne (List.length_eq_zero_iff.mp this)
  obtain ⟨hm, hend⟩ := C.end_rank hne
  have hb := C.ginv.rank_bounds (C.ne hne) (h := rk) (fun p hp => C.lt (u := p.1) (v := p.2) hp)
  have hpos : 0 < rk endV := by
    have : startV ≠ endV := by decide
    have := (hb _ C.ginv.start_mem).2 this
    omega
  have hs0 := (C.start_rank hne C.ginv.start_mem).mpr rfl
  obtain ⟨s, h2, n, f, h3, R, _, hcrit, hin⟩ := performNearMatch_inside B
    (by
      intro v hv h1 h2
      have h3 := (hb v (B.mem.mp hv)).1 h1
      have h4 := (hb v (B.mem.mp hv)).2 h2
      omega) hs0 (B.mem.mpr C.ginv.start_mem) hpos env.ratio
  rw [h2] at h1
  obtain ⟨L, hby, k1, k2, k3⟩ := near_columns B C hne R hcrit hin
  refine ⟨g, ps, r, rk, ord, m, f, s.2, L, C, h0, ?_, hby, k1, k2, k3⟩
  unfold collateTable
  rw [h1]
  show Except.ok _ = _
  rw [h3, mkTable_withNear]

/-- C55. With near matching, whatever the number of witnesses and the similarity function: the table has as many columns as
without it, no column is empty and every row has a cell for each column. A cell is empty or holds exactly one token, which is
a token of the witness of its row; no token stands in two cells. A column that is not marked variant really agrees: every
witness has a token in it, all with the same string. -/
theorem C55_nothing_invented (env : Env) (hts : TopoSpec env.topo) (ws : List Witness) (hv : Valid ws)
    (hs : ∀ w ∈ ws, w.sigil ≠ []) (o : Opts) (ho : NearMatching o) :
    ∃ t t₀, collateTable env ws o = .ok t ∧ collateTable env ws { o with nearMatch := false } = .ok t₀ ∧
      t.columns.length = t₀.columns.length ∧ t.rows.map Row.header = ws.map Witness.sigil ∧
      (∀ row ∈ t.rows, row.cells.length = t.columns.length) ∧
      (∀ j, j < t.columns.length → ∃ row ∈ t.rows, ∃ ts, row.cells[j]? = some (some ts)) ∧
      (∀ (k : Nat) (w : Witness) (row : Row), ws[k]? = some w → t.rows[k]? = some row → ∃ pos : Nat → Nat,
        (∀ (j : Nat) (ts : List Token), row.cells[j]? = some (some ts) →
          ∃ u x, w.tokens[pos j]? = some u ∧ SameToken u x ∧ ts = [x]) ∧
        ∀ (j j' : Nat) (ts ts' : List Token), row.cells[j]? = some (some ts) → row.cells[j']? = some (some ts') →
          pos j = pos j' → j = j') ∧
      ∀ (j : Nat) (c : Column), t.columns[j]? = some c → c.variant = false →
        ∃ l : Str, ∀ row ∈ t.rows, ∃ x, row.cells[j]? = some (some [x]) ∧ x.str = l := by
  obtain ⟨g, ps, r, rk, ord, m, f, r', L, C, h0, h1, R, hlen, hm, hcol⟩ := near_table env hts hv ho
  have hs' := indexed_sigil_ne hs
  have hsp := C.sigil_ne hs'
  have hcolk : ∀ (j : Nat) (c : Column), (mkTable (indexed 0 ws) g r').columns[j]? = some c →
      j + 1 < m ∧ colAt g (indexed 0 ws).length L (j + 1) = some c := by
    intro j c hc
    have hj := (List.getElem?_eq_some_iff.mp hc).1
    rw [hcol j hj] at hc
    exact ⟨by omega, hc⟩
  refine ⟨_, mkTable (indexed 0 ws) g r, h1, ?_, hlen, ?_, ?_, ?_, ?_, ?_⟩
  · unfold collateTable
    rw [h0]
    rfl
  · rw [mkTable_rows, List.map_map, ← indexed_sigla 0 ws]
    rfl
  · intro row hrow
    obtain ⟨k, hk⟩ := List.getElem?_of_mem hrow
    obtain ⟨w, hw, _, hcells⟩ := row_at hk
    rw [hcells]; simp
  · intro j hj
    obtain ⟨c, hc⟩ : ∃ c, (mkTable (indexed 0 ws) g r').columns[j]? = some c := ⟨_, List.getElem?_eq_getElem hj⟩
    obtain ⟨hjm, hcl⟩ := hcolk j c hc
    obtain ⟨p, hp, hmem⟩ := (R.col_keys C.ginv hsp hjm hcl).2
    obtain ⟨i, w, hw, hws⟩ := C.sigil_mem hp
    obtain ⟨ts, hts⟩ := exists_dget_of_mem_keys hmem
    refine ⟨{ header := w.sigil, cells := (mkTable (indexed 0 ws) g r').columns.map (fun c => dget c.tokens w.sigil) }, ?_, ts, ?_⟩
    · rw [mkTable_rows]
      exact List.mem_map.mpr ⟨w, List.mem_of_getElem? hw, rfl⟩
    · simp only [List.getElem?_map, hc, Option.map_some, hws, hts]
  · intro k w row hw hr
    obtain ⟨w', hw', _, hcells⟩ := row_at hr
    obtain ⟨p, hp, hpw, htext⟩ := C.at hw'
    have hpm := List.mem_of_getElem? hp
    have hsame := sameTokens_at h0 hw hw'
    have hsingle := C.single rfl p hpm
    -- the tokens of the witness are those of the segments
    have htok : ∀ (i : Nat) (v : VId) (ts : List Token), p.segs[i]? = some (v, ts) → ∃ x, ts = [x] ∧ w'.tokens[i]? = some x := by
      rw [← htext]
      unfold WPath.text
      generalize p.segs = l at hsingle
      induction l with
      | nil => intro i v ts h; simp at h
      | cons q l ih =>
        intro i v ts h
        obtain ⟨x, hx⟩ := hsingle q (by simp)
        rw [List.flatMap_cons, hx]
        cases i with
        | zero =>
          simp only [List.getElem?_cons_zero, Option.some.injEq] at h
          subst h
          exact ⟨x, hx, by simp⟩
        | succ i =>
          simp only [List.getElem?_cons_succ] at h
          obtain ⟨y, hy, hy'⟩ := ih (fun q hq => hsingle q (by simp [hq])) i v ts h
          exact ⟨y, hy, by simpa using hy'⟩
    have hcell : ∀ (j : Nat) (ts : List Token), row.cells[j]? = some (some ts) →
        ∃ (i : Nat) (v : VId), p.segs[i]? = some (v, ts) ∧ f v = j + 1 := by
      intro j ts h
      rw [hcells, List.getElem?_map] at h
      obtain ⟨c, hc, hd⟩ := Option.map_eq_some_iff.mp h
      obtain ⟨hjm, hcl⟩ := hcolk j c hc
      rw [← hpw] at hd
      obtain ⟨v, hvL, hq⟩ := R.col_entry C.ginv hsp hjm hcl hpm hd
      obtain ⟨i, hi⟩ := List.getElem?_of_mem hq
      exact ⟨i, v, hi, ((R.mem _ hjm v).mp hvL).2⟩
    classical
    refine ⟨fun j => if h : ∃ i : Nat, ∃ v ts, p.segs[i]? = some (v, ts) ∧ f v = j + 1 ∧ row.cells[j]? = some (some ts)
      then h.choose else 0, ?_, ?_⟩
    · intro j ts h
      obtain ⟨i, v, hi, hf⟩ := hcell j ts h
      have hex : ∃ i : Nat, ∃ v ts, p.segs[i]? = some (v, ts) ∧ f v = j + 1 ∧ row.cells[j]? = some (some ts) := ⟨i, v, ts, hi, hf, h⟩
      simp only [dif_pos hex]
      obtain ⟨v', ts', a1, a2, a3⟩ := hex.choose_spec
      rw [h] at a3
      obtain rfl := Option.some.inj (Option.some.inj a3)
      obtain ⟨x, hx, hx'⟩ := htok _ _ _ a1
      obtain ⟨hlt, he⟩ := List.getElem?_eq_some_iff.mp hx'
      have hlt' := hlt
      rw [← hsame.length_eq] at hlt'
      have := (List.forall₂_iff_get.mp hsame).2 _ hlt' hlt
      simp only [List.get_eq_getElem, he] at this
      exact ⟨_, x, List.getElem?_eq_getElem hlt', this, hx⟩
    · intro j j' ts ts' h h' hpos
      obtain ⟨i, v, hi, hf⟩ := hcell j ts h
      obtain ⟨i', v', hi', hf'⟩ := hcell j' ts' h'
      have hex : ∃ i : Nat, ∃ v ts, p.segs[i]? = some (v, ts) ∧ f v = j + 1 ∧ row.cells[j]? = some (some ts) := ⟨i, v, ts, hi, hf, h⟩
      have hex' : ∃ i : Nat, ∃ v ts, p.segs[i]? = some (v, ts) ∧ f v = j' + 1 ∧ row.cells[j']? = some (some ts) :=
        ⟨i', v', ts', hi', hf', h'⟩
      simp only [dif_pos hex, dif_pos hex'] at hpos
      obtain ⟨y, us, a1, a2, _⟩ := hex.choose_spec
      obtain ⟨y', us', b1, b2, _⟩ := hex'.choose_spec
      rw [hpos, b1] at a1
      have := congrArg Prod.fst (Option.some.inj a1)
      simp only at this
      rw [this] at b2
      omega
  · intro j c hc hvar
    obtain ⟨hjm, hcl⟩ := hcolk j c hc
    obtain ⟨hone, hlenc⟩ := colAt_not_variant hcl hvar
    obtain ⟨hkeys, p0, hp0, hp0c⟩ := R.col_keys C.ginv hsp hjm hcl
    have hall : ∀ p ∈ ps, p.sigil ∈ c.tokens.map Prod.fst := by
      intro p hp
      refine subset_of_length (colAt_nodup hcl) (s := ps.map WPath.sigil) ?_ ?_ _ (List.mem_map.mpr ⟨p, hp, rfl⟩)
      · intro σ hσ
        obtain ⟨q, hq, rfl⟩ := hkeys σ hσ
        exact List.mem_map.mpr ⟨q, hq, rfl⟩
      · simp [hlenc, C.length]
    have hentry : ∀ p ∈ ps, ∃ x v, dget c.tokens p.sigil = some [x] ∧ v ∈ L (j + 1) ∧ (v, [x]) ∈ p.segs := by
      intro p hp
      obtain ⟨ts, hts⟩ := exists_dget_of_mem_keys (hall p hp)
      obtain ⟨v, hv1, hv2⟩ := R.col_entry C.ginv hsp hjm hcl hp hts
      obtain ⟨x, hx⟩ := C.single rfl p hp _ hv2
      simp only at hx
      subst hx
      exact ⟨x, v, hts, hv1, hv2⟩
    obtain ⟨x0, v0, hd0, hv0, hq0⟩ := hentry p0 hp0
    refine ⟨x0.str, ?_⟩
    intro row hrow
    obtain ⟨i, hi⟩ := List.getElem?_of_mem hrow
    obtain ⟨w, hw, _, hcells⟩ := row_at hi
    obtain ⟨p, hp, hpw, _⟩ := C.at hw
    obtain ⟨x, v, hd, hvk, hq⟩ := hentry p (List.mem_of_getElem? hp)
    refine ⟨x, ?_, ?_⟩
    · rw [hcells]
      simp only [List.getElem?_map, hc, Option.map_some, ← hpw, hd]
    · have : v = v0 := by
        match hl : L (j + 1) with
        | [] => rw [hl] at hv0; simp at hv0
        | [a] => rw [hl] at hv0 hvk; simp at hv0 hvk; rw [hv0, hvk]
        | a :: b :: l => rw [hl] at hone; simp at hone
      subst this
      have := C.uniform p (List.mem_of_getElem? hp) p0 hp0 v [x] [x0] hq hq0
      simpa using this

/-- C55: three witnesses for which near matching loses a token; what is left is as stated. -/
example : TopoSpec nearEnv.topo ∧ Valid losingWitnesses ∧ (∀ w ∈ losingWitnesses, w.sigil ≠ []) ∧
    NearMatching { segmentation := false, nearMatch := true } :=
  ⟨kahn_spec, valid_of_check (by decide) (by decide) (by decide) (by decide), by decide, ⟨rfl, rfl, rfl, rfl⟩⟩

/-- Spec: `l` is what near matching compares for vertex `v`: its label, or `no label` if that is empty. -/
def Spec.Shows (g : VGraph) (v : VId) (l : Str) : Prop :=
  ∃ x, (v, x) ∈ g.nodes ∧ ((x.label ≠ [] ∧ l = x.label) ∨ (x.label = [] ∧ l = S "no label"))

theorem vertexStr_of_shows {g : VGraph} (h : (g.nodes.map Prod.fst).Nodup) {v : VId} {l : Str} (hl : Spec.Shows g v l) :
    g.vertexStr v = l := by
  obtain ⟨x, hx, hl⟩ := hl
  unfold VGraph.vertexStr
  rw [dget_of_mem h hx]
  rcases hl with ⟨h1, rfl⟩ | ⟨h1, rfl⟩ <;> simp [h1]

/-- C56. Where near matching puts a vertex, for at most two witnesses. The ranks still grow along the edges, and no vertex moves
to the left. Let `v` follow `s`. If `v` is in the column after the original column of `s`, then `s` stays where it was. If no
vertex follows `s` there, then `s` stands in the column of a vertex `w` that did not move, is before `v` and not before the
original column of `s`; no other vertex there that did not move is more similar to `s` than `w`, and none in a column before that
of `w` is as similar. -/
theorem C56_most_similar (env : Env) (hts : TopoSpec env.topo) (ws : List Witness) (hv : Valid ws)
    (h2 : ws.length ≤ 2) (o : Opts) (ho : NearMatching o) :
    ∃ (ws' : Collation) (g : VGraph) (r : Ranking) (g' : VGraph) (r' : Ranking) (f₀ f₁ : Nat → Nat), collateRanked env ws { o with nearMatch := false } = .ok (ws', g, r) ∧
      collateRanked env ws o = .ok (ws', g', r') ∧ g'.nodes = g.nodes ∧ g'.edges = g.edges ∧
      (∀ v ∈ g.vertices, dget r.byVertex v = some (f₀ v) ∧ dget r'.byVertex v = some (f₁ v) ∧ f₀ v ≤ f₁ v) ∧
      ∀ s v : Nat, (s, v) ∈ g.pairs → f₁ s < f₁ v ∧ (f₁ v = f₀ s + 1 → f₁ s = f₀ s) ∧
        ((∀ v' : Nat, (s, v') ∈ g.pairs → f₁ v' ≠ f₀ s + 1) →
          ∃ w ∈ g.vertices, w ≠ s ∧ f₁ w = f₀ w ∧ f₀ s ≤ f₁ w ∧ f₁ w < f₁ v ∧ f₁ s = f₁ w ∧
            ∀ c ∈ g.vertices, c ≠ s → f₁ c = f₀ c → f₀ s ≤ f₁ c → f₁ c < f₁ v → ∀ ls lc lw, Shows g s ls → Shows g c lc → Shows g w lw →
              env.ratio ls lc ≤ env.ratio ls lw ∧ (f₁ c < f₁ w → env.ratio ls lc < env.ratio ls lw)) := by
  obtain ⟨g, ps, r, rk, ord, m, B, C, h0, h1⟩ := near_base env hts hv ho
  have hne : indexed 0 ws ≠ [] := by
    intro h0
    have := congrArg List.length h0
    rw [indexed_length] at this
    exact hv.ne (List.length_eq_zero_iff.mp this)
  obtain ⟨n, r', f, h3, R, hinc, hcrit, hge, hnear, hstay, hplaced⟩ := performNearMatch_two B C.ginv (C.ne hne)
    (atMostTwo_of_length (by rw [C.length, indexed_length]; exact h2)) env.ratio
  rw [h3] at h1
  refine ⟨indexed 0 ws, g, r, g.withNear n, r', rk, f, h0, h1, rfl, rfl, ?_, ?_⟩
  · intro v hv
    have hvo := B.mem.mpr hv
    exact ⟨by rw [C.rank.st.bv, dget_map_self rk ord v hvo], by rw [R.bv, dget_map_self f ord v hvo], hge v hvo⟩
  · intro s v hsv
    have hso := (B.ends _ hsv).1
    have hvo := (B.ends _ hsv).2
    have hlt := hinc _ hsv
    simp only at hso hvo hlt
    obtain ⟨e, he, hes⟩ := List.mem_map.mp hsv
    obtain ⟨rfl, rfl⟩ := Prod.mk.inj hes
    refine ⟨hlt, ?_, ?_⟩
    · intro hf
      have := hge _ hso
      omega
    · intro hno
      by_cases hc : Crit g rk e.src
      · exfalso
        have hb := C.ginv.rank_bounds (C.ne hne) (h := rk) (fun p hp => C.lt (u := p.1) (v := p.2) hp)
        have hr := C.lt hsv
        generalize e.src = s at *
        cases hc with
        | last =>
          by_cases he : e.tgt = endV
          · rw [he] at hr; omega
          · have := (hb _ (B.mem.mp hvo)).2 he
            omega
        | step hp hcv hr =>
          rename_i v'
          exact hno v' hp (by rw [hcrit v' (B.ends _ hp).2 hcv, hr])
      · rcases hplaced e he hc with ⟨hp, _⟩ | ⟨w, hw, hws, hgt, hle, hwv, hmax⟩
        · exact absurd hp (hno _ hsv)
        · obtain ⟨hwo, a1, a2⟩ := hnear _ hw
          simp only at hwo a1 a2
          refine ⟨w, B.mem.mp hwo, hws, a2, by omega, by omega, by omega, ?_⟩
          intro c hcv hcs hcf hc1 hc2 ls lc lw hls hlc hlw
          have hnd : (g.nodes.map Prod.fst).Nodup := B.wf.nd
          have := hmax c (B.mem.mpr hcv) hcs hcf hc1 hc2
          rwa [vertexStr_of_shows hnd hls, vertexStr_of_shows hnd hlc, vertexStr_of_shows hnd hlw, ← a2] at this

/-- C56: in this collation vertex `5` (there) and `6` (that) of B are between `over` and `dog`, and vertex `3` (this) of A moves
from the column of `there`, rank 2, to the more similar `that`, rank 3. -/
example : TopoSpec nearEnv.topo ∧ Valid dogWitnesses ∧ dogWitnesses.length ≤ 2 ∧
    NearMatching { segmentation := false, nearMatch := true } ∧
    (collateRanked nearEnv dogWitnesses { segmentation := false }).map (fun r => (r.2.1.pairs, r.2.2.byVertex)) =
      .ok ([(0, 2), (2, 3), (3, 4), (4, 1), (2, 5), (5, 6), (6, 4)],
        [(0, 0), (2, 1), (3, 2), (5, 2), (6, 3), (4, 4), (1, 5)]) ∧
    (collateRanked nearEnv dogWitnesses { segmentation := false, nearMatch := true }).map (fun r => (r.2.1.pairs, r.2.2.byVertex)) =
      .ok ([(0, 2), (2, 3), (3, 4), (4, 1), (2, 5), (5, 6), (6, 4)],
        [(0, 0), (2, 1), (3, 3), (5, 2), (6, 3), (4, 4), (1, 5)]) ∧
    nearEnv.ratio (S "this") (S "there") < nearEnv.ratio (S "this") (S "that") :=
  ⟨kahn_spec, valid_of_check (by decide) (by decide) (by decide) (by decide), by decide, ⟨rfl, rfl, rfl, rfl⟩,
    by decide +kernel, by decide +kernel, by decide +kernel⟩

end CollateX
