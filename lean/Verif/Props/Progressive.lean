import Verif.Proofs.Chains
import Verif.Props.Textbook
/-
Property C103: any number of witnesses are collated as by a short program on lists of words.
-/

namespace CollateX
open Spec

/-- What has been collated, and the short program; `R` is kept by segmentation. -/
theorem worked_inv (env : Env) (hts : TopoSpec env.topo) (ws : List Witness) (hv : Valid ws) (o : Opts) (ho : ExactMatching o)
    (hf : o.pfilter = none) {R : VGraph → List WPath → Prop} (hR0 : ∀ W g ps, Worked (ws.map strings) W → Tracks W g ps → GInv g ps →
      (∀ p ∈ ps, ∀ q ∈ p.segs, ∃ t, q.2 = [t]) → R g ps) (hR : o.segmentation = true → StepInv env.cc R) :
    ∃ g rk ps rkf ord m, collateRanked env ws o = .ok (indexed 0 ws, g, rk) ∧
      Collated env.cc (indexed 0 ws) o.segmentation g ps rk rkf ord m ∧ R g ps := by
  let Q : TokenIndex → AlignSt → List WPath → Prop := fun ti s ps =>
    ∃ W, Worked ((ti.ws.take ps.length).map (fun w => w.tokens.map Token.str)) W ∧ Tracks W s.g ps
  obtain ⟨g, ps, rk, rkf, ord, m, h1, C, hr⟩ := collateRanked_inv env hts hv o ho.astar ho.detect ho.near (Q := Q) (R := R)
    (fun ti hti L B => by
      refine ⟨?_, ?_, ?_⟩
      · rw [hf]
        rintro s s' ps w P rkf o m r cube cells al hs hne hw hs' hst ⟨W, hW, hT⟩
        obtain ⟨pick, hp, hT'⟩ := hst.tracks L hs hne hw hs' hT
        refine ⟨W.add (w.tokens.map Token.str) pick, ?_, hT'⟩
        have : (ti.ws.take (ps ++ [P]).length).map (fun w => w.tokens.map Token.str) =
            (ti.ws.take ps.length).map (fun w => w.tokens.map Token.str) ++ [w.tokens.map Token.str] := by
          rw [List.length_append, List.length_singleton, List.take_add_one, hw, List.map_append]
          rfl
        rw [this]
        exact Worked.add _ pick hW hp
      · intro w s hw hs
        refine ⟨_, ?_, tracks_first hs⟩
        have : (ti.ws.take [(⟨w.sigil, newSegs [] 2 w.tokens⟩ : WPath)].length).map (fun w => w.tokens.map Token.str) =
            [] ++ [w.tokens.map Token.str] := by
          rw [List.length_singleton, show (1 : Nat) = 0 + 1 from rfl, List.take_add_one, hw]
          rfl
        rw [this]
        refine Worked.add _ _ Worked.nil ?_
        intro x j b _ h
        exact absurd rfl h
      · rintro s ps hs hlen ⟨W, hW, hT⟩
        rw [hlen, List.take_length, hti] at hW
        have : (indexed 0 ws).map (fun w => w.tokens.map Token.str) = ws.map strings := by
          apply List.ext_getElem?
          intro k
          rw [List.getElem?_map, List.getElem?_map]
          cases hk : (indexed 0 ws)[k]? with
          | none =>
            have := List.getElem?_eq_none_iff.mp hk
            rw [indexed_length] at this
            rw [List.getElem?_eq_none this]
            rfl
          | some a =>
            obtain ⟨b, e1, _, e2⟩ := indexed_strs _ hk
            rw [e1, Option.map_some, Option.map_some, e2]
            rfl
        rw [this] at hW
        exact hR0 W s.g ps hW hT hs.ginv hs.single)
    hR
  exact ⟨g, rk, ps, rkf, ord, m, h1, C, hr⟩

/-- What has been collated, and the short program. -/
theorem worked_core (env : Env) (hts : TopoSpec env.topo) (ws : List Witness) (hv : Valid ws) (o : Opts) (ho : ExactMatching o)
    (hf : o.pfilter = none) (hseg : o.segmentation = false) :
    ∃ g rk ps rkf ord m W, collateRanked env ws o = .ok (indexed 0 ws, g, rk) ∧ Collated env.cc (indexed 0 ws) false g ps rk rkf ord m ∧
      Worked (ws.map strings) W ∧ Tracks W g ps := by
  obtain ⟨g, rk, ps, rkf, ord, m, h1, C, W, hW, hT⟩ := worked_inv env hts ws hv o ho hf
    (R := fun g ps => ∃ W, Worked (ws.map strings) W ∧ Tracks W g ps) (fun W g ps h1 h2 _ _ => ⟨W, h1, h2⟩)
    (fun h => by rw [hseg] at h; cases h)
  rw [hseg] at C
  exact ⟨g, rk, ps, rkf, ord, m, W, h1, C, hW, hT⟩

section
variable {cc : CharClass} {ws : List Witness} {g : VGraph} {ps : List WPath} {rk : Ranking} {rkf : VId → Nat} {ord : List VId} {m : Nat}
  {W : Work} {seg : Bool}

/-- The node of a text in a column. -/
theorem Collated.nodeAt_iff (C : Collated cc ws seg g ps rk rkf ord m) (N : Nodes W g ps) (hne : ws ≠ []) {p : WPath} (hp : p ∈ ps)
    {r : List Nat} (hr : p.inner = r.map (· + 2)) {x n : Nat} : W.nodeAt r x = some n ↔ n ∈ r ∧ rkf (n + 2) = x := by
  have hcol : ∀ n ∈ r, W.column n = rkf (n + 2) := by
    intro n hn
    have h1 : n + 2 ∈ p.inner := by rw [hr]; exact List.mem_map.mpr ⟨n, hn, rfl⟩
    obtain ⟨q, hq, hqe⟩ := List.mem_map.mp h1
    have h2 := (C.ginv.segs_in p hp q hq).1
    rw [hqe] at h2
    exact N.column C.ginv (C.ne hne) C.rank h2
  have hinj : ∀ a ∈ r, ∀ b ∈ r, rkf (a + 2) = rkf (b + 2) → a = b := by
    intro a ha b hb he
    have hinc := C.inner_increasing hp
    rw [hr, List.pairwise_map] at hinc
    obtain ⟨i, hi⟩ := List.getElem?_of_mem ha
    obtain ⟨j, hj⟩ := List.getElem?_of_mem hb
    obtain ⟨q1, q2⟩ := List.getElem?_eq_some_iff.mp hi
    obtain ⟨q3, q4⟩ := List.getElem?_eq_some_iff.mp hj
    rcases Nat.lt_trichotomy i j with h | rfl | h
    · have := List.pairwise_iff_getElem.mp hinc i j q1 q3 h
      rw [q2, q4] at this
      omega
    · rw [hi] at hj
      exact Option.some.inj hj
    · have := List.pairwise_iff_getElem.mp hinc j i q3 q1 h
      rw [q2, q4] at this
      omega
  unfold Work.nodeAt
  constructor
  · intro h
    have h1 := List.mem_of_find?_eq_some h
    have h2 : W.column n = x := by simpa using List.find?_some h
    exact ⟨h1, by rw [← hcol n h1]; exact h2⟩
  · rintro ⟨h1, h2⟩
    cases hf : r.find? (fun n => decide (W.column n = x)) with
    | none =>
      have := List.find?_eq_none.mp hf n h1
      rw [hcol n h1] at this
      simp [h2] at this
    | some n' =>
      have h3 := List.mem_of_find?_eq_some hf
      have h4 : W.column n' = x := by simpa using List.find?_some hf
      rw [hcol n' h3] at h4
      rw [hinj n' h3 n h1 (by omega)]

/-- What stands in a cell. -/
theorem Collated.cellAt_segs (C : Collated cc ws seg g ps rk rkf ord m) (hs : ∀ w ∈ ws, w.sigil ≠ []) (hv : ws ≠ []) {k j : Nat} {row : Row}
    {p : WPath} (hr : (mkTable ws g rk).rows[k]? = some row) (hp : ps[k]? = some p) (hj : j < (mkTable ws g rk).columns.length)
    (l : List Str) : cellAt row j = some l ↔ ∃ v ts, (v, ts) ∈ p.segs ∧ rkf v = j + 1 ∧ l = ts.map Token.str := by
  obtain ⟨w, hw, _, hc⟩ := row_at hr
  obtain ⟨p', hp', hpw, _⟩ := C.at hw
  rw [hp] at hp'
  obtain rfl := Option.some.inj hp'
  have hpm := List.mem_of_getElem? hp
  obtain ⟨h1, h2⟩ := C.columns_at hv
  have h3 := h2 j hj
  have hjm : j + 1 < m := by
    have := rank_end C.ginv (C.ne hv) C.rank
    omega
  have key := C.byRank.cell C.ginv hpm (C.sigil_ne hs _ hpm) (C.inner_increasing hpm) ws.length hjm
  rw [← h3, hpw] at key
  have e : ((row.cells[j]?).join) = ((mkTable ws g rk).columns[j]?).bind (fun c => dget c.tokens w.sigil) := by
    rw [hc, List.getElem?_map, List.getElem?_eq_getElem hj]
    rfl
  unfold cellAt
  rw [e]
  constructor
  · intro h
    obtain ⟨ts, h4, rfl⟩ := Option.map_eq_some_iff.mp h
    obtain ⟨⟨v, ts'⟩, h5, h6, rfl⟩ := (key ts).mp h4
    exact ⟨v, ts', h5, h6, rfl⟩
  · rintro ⟨v, ts, h4, h5, rfl⟩
    rw [(key ts).mpr ⟨_, h4, h5, rfl⟩]
    rfl

/-- The table shows the nodes of the short program with their texts. -/
theorem Collated.shown_nodes (C : Collated cc ws seg g ps rk rkf ord m) (N : Nodes W g ps) (text : Nat → List Str)
    (htext : ∀ p ∈ ps, ∀ n ts, (n + 2, ts) ∈ p.segs → ts.map Token.str = text n) (hs : ∀ w ∈ ws, w.sigil ≠ []) (hne : ws ≠ [])
    (hmark : ∀ j c, (mkTable ws g rk).columns[j]? = some c → (c.variant = false ↔
      (∃ v, ∀ u ∈ g.vertices, dget rk.byVertex u = some (j + 1) ↔ u = v) ∧ ∀ w ∈ ws, ∃ ts, dget c.tokens w.sigil = some ts)) :
    markedStrings (mkTable ws g rk) =
      W.rows.map (fun r => (List.range W.width).map (fun x => (W.variantAt (x + 1), (W.nodeAt r (x + 1)).map text))) := by
  have hN : (mkTable ws g rk).columns.length = W.width := by
    have h1 := (C.columns_at hne).1
    have h2 := N.width C.ginv (C.ne hne) C.rank
    omega
  have hlen : (mkTable ws g rk).rows.length = ps.length := by
    rw [mkTable_rows, List.length_map, C.length]
  have hrow : ∀ {k : Nat} {p : WPath}, ps[k]? = some p → ∃ r, W.rows[k]? = some r ∧ p.inner = r.map (· + 2) := by
    intro k p hp
    have := congrArg (fun l => l[k]?) N.rows
    simp only [List.getElem?_map, hp, Option.map_some] at this
    obtain ⟨r, h1, h2⟩ := Option.map_eq_some_iff.mp this.symm
    exact ⟨r, h1, h2.symm⟩
  have hlenR : W.rows.length = ps.length := by
    have := congrArg List.length N.rows
    simpa using this.symm
  -- cells
  have hcell : ∀ {k : Nat} {p : WPath} {r : List Nat} {row : Row}, ps[k]? = some p → W.rows[k]? = some r →
      (mkTable ws g rk).rows[k]? = some row → ∀ x, x < W.width → cellAt row x = (W.nodeAt r (x + 1)).map text := by
    intro k p r row hp hr hro x hx
    obtain ⟨r', hr', hin⟩ := hrow hp
    rw [hr] at hr'
    obtain rfl := Option.some.inj hr'
    have hpm := List.mem_of_getElem? hp
    apply Option.ext
    intro y
    rw [C.cellAt_segs hs hne hro hp (by omega) y, Option.map_eq_some_iff]
    constructor
    · rintro ⟨v, ts, h1, h2, rfl⟩
      have hvm : v ∈ p.inner := List.mem_map.mpr ⟨_, h1, rfl⟩
      rw [hin] at hvm
      obtain ⟨n, hn, rfl⟩ := List.mem_map.mp hvm
      exact ⟨n, (C.nodeAt_iff N hne hpm hin).mpr ⟨hn, h2⟩, (htext p hpm n ts h1).symm⟩
    · rintro ⟨n, h1, rfl⟩
      obtain ⟨h3, h4⟩ := (C.nodeAt_iff N hne hpm hin).mp h1
      have hm : n + 2 ∈ p.inner := by rw [hin]; exact List.mem_map.mpr ⟨n, h3, rfl⟩
      obtain ⟨⟨v, ts⟩, h5, h6⟩ := List.mem_map.mp hm
      simp only at h6
      subst h6
      exact ⟨n + 2, ts, h5, h4, (htext p hpm n ts h5).symm⟩
  -- marks
  have hvar : ∀ {x : Nat} {c : Column}, (mkTable ws g rk).columns[x]? = some c → c.variant = W.variantAt (x + 1) := by
    intro x c hc
    have hx : x < (mkTable ws g rk).columns.length := (List.getElem?_eq_some_iff.mp hc).1
    have h1 := hmark x c hc
    have htok : ∀ {k : Nat} {w : Witness} {p : WPath}, ws[k]? = some w → ps[k]? = some p →
        ((∃ ts, dget c.tokens w.sigil = some ts) ↔ ∃ v ∈ p.inner, rkf v = x + 1) := by
      intro k w q h1 h2
      obtain ⟨row, hrow⟩ : ∃ row, (mkTable ws g rk).rows[k]? = some row := ⟨_, List.getElem?_eq_getElem (by
        rw [hlen]; exact (List.getElem?_eq_some_iff.mp h2).1)⟩
      obtain ⟨w', hw', _, hcs⟩ := row_at hrow
      rw [h1] at hw'
      obtain rfl := Option.some.inj hw'
      have hce : cellAt row x = (dget c.tokens w.sigil).map (List.map Token.str) := by
        unfold cellAt
        rw [hcs, List.getElem?_map, hc]
        rfl
      constructor
      · rintro ⟨ts, hts⟩
        rw [hts] at hce
        obtain ⟨v, _, h3, h4, _⟩ := (C.cellAt_segs hs hne hrow h2 hx _).mp hce
        exact ⟨v, List.mem_map.mpr ⟨_, h3, rfl⟩, h4⟩
      · rintro ⟨v, h3, h4⟩
        obtain ⟨⟨v', us⟩, hm, rfl⟩ := List.mem_map.mp h3
        have := (C.cellAt_segs hs hne hrow h2 hx _).mpr ⟨v', us, hm, h4, rfl⟩
        rw [hce] at this
        obtain ⟨ts, h5, _⟩ := Option.map_eq_some_iff.mp this
        exact ⟨ts, h5⟩
    have h2 : W.variantAt (x + 1) = false ↔ ∃ n < W.words.length, ∀ r ∈ W.rows, W.nodeAt r (x + 1) = some n := by
      unfold Work.variantAt
      simp [List.any_eq_true, List.all_eq_true]
    have hall : ∀ p ∈ ps, ∃ (k : Nat) (w : Witness), ws[k]? = some w ∧ ps[k]? = some p := by
      intro p hp
      obtain ⟨k, hk⟩ := List.getElem?_of_mem hp
      have := (List.getElem?_eq_some_iff.mp hk).1
      rw [C.length] at this
      exact ⟨k, _, List.getElem?_eq_getElem this, hk⟩
    have h3 : (c.variant = false ↔ W.variantAt (x + 1) = false) := by
      rw [h1, h2]
      constructor
      · rintro ⟨⟨v, hv⟩, htk⟩
        have hat : ∀ p ∈ ps, v ∈ p.inner ∧ rkf v = x + 1 := by
          intro p hp
          obtain ⟨k, w, hw, hk⟩ := hall p hp
          obtain ⟨u, hu, hru⟩ := (htok hw hk).mp (htk w (List.mem_of_getElem? hw))
          obtain ⟨q, hq, rfl⟩ := List.mem_map.mp hu
          have hm := (C.ginv.segs_in p hp q hq).1
          have := (hv q.1 hm).mp (by rw [C.rank.byVertex hm, hru])
          rw [← this]
          exact ⟨hu, hru⟩
        obtain ⟨p0, hp0⟩ := List.exists_mem_of_ne_nil _ (C.ne hne)
        obtain ⟨q, hq, hqe⟩ := List.mem_map.mp (hat p0 hp0).1
        have hin := C.ginv.segs_in p0 hp0 q hq
        rw [hqe] at hin
        obtain ⟨n, rfl, hn⟩ := N.node hin.1 hin.2.1 hin.2.2.1
        refine ⟨n, hn, ?_⟩
        intro r hr
        obtain ⟨p, hp, he⟩ := N.path_of hr
        obtain ⟨h4, h5⟩ := hat p hp
        rw [he] at h4
        obtain ⟨n', hn', he'⟩ := List.mem_map.mp h4
        obtain rfl : n' = n := by simpa using he'
        exact (C.nodeAt_iff N hne hp he).mpr ⟨hn', h5⟩
      · rintro ⟨n, hn, hrows⟩
        have hat : ∀ p ∈ ps, n + 2 ∈ p.inner ∧ rkf (n + 2) = x + 1 := by
          intro p hp
          obtain ⟨r, hr, he⟩ := N.row_of hp
          obtain ⟨h4, h5⟩ := (C.nodeAt_iff N hne hp he).mp (hrows r hr)
          exact ⟨by rw [he]; exact List.mem_map.mpr ⟨n, h4, rfl⟩, h5⟩
        refine ⟨⟨n + 2, ?_⟩, ?_⟩
        · intro u hu
          rw [C.rank.byVertex hu]
          constructor
          · intro hk
            have hk : rkf u = x + 1 := Option.some.inj hk
            have hu0 : u ≠ startV := by
              rintro rfl
              have := (C.start_rank hne hu).mpr rfl
              omega
            have hu1 : u ≠ endV := by
              rintro rfl
              have := (C.columns_at hne).1
              omega
            obtain ⟨q, hq, huq⟩ := C.ginv.cover u hu hu0 hu1
            obtain ⟨r, hr, he⟩ := N.row_of hq
            obtain ⟨n', rfl, _⟩ := N.node hu hu0 hu1
            rw [he] at huq
            obtain ⟨n2, hn2, he2⟩ := List.mem_map.mp huq
            obtain rfl : n2 = n' := by simpa using he2
            have := (C.nodeAt_iff N hne hq he).mpr ⟨hn2, hk⟩
            rw [hrows r hr] at this
            rw [Option.some.inj this]
          · rintro rfl
            obtain ⟨p0, hp0⟩ := List.exists_mem_of_ne_nil _ (C.ne hne)
            rw [(hat p0 hp0).2]
        · intro w hw
          obtain ⟨k, hk⟩ := List.getElem?_of_mem hw
          obtain ⟨p, hp⟩ : ∃ p, ps[k]? = some p := ⟨_, List.getElem?_eq_getElem (by
            rw [C.length]; exact (List.getElem?_eq_some_iff.mp hk).1)⟩
          obtain ⟨h4, h5⟩ := hat p (List.mem_of_getElem? hp)
          exact (htok hk hp).mpr ⟨n + 2, h4, h5⟩
    cases hb : c.variant <;> cases hb' : W.variantAt (x + 1) <;> simp_all
  rw [markedStrings_eq]
  unfold tableSummary
  simp only [List.map_map]
  apply List.ext_getElem?
  intro k
  rw [List.getElem?_map, List.getElem?_map]
  by_cases hk : k < ps.length
  · obtain ⟨p, hp⟩ : ∃ p, ps[k]? = some p := ⟨_, List.getElem?_eq_getElem hk⟩
    obtain ⟨r, hr, _⟩ := hrow hp
    obtain ⟨row, hro⟩ : ∃ row, (mkTable ws g rk).rows[k]? = some row := ⟨_, List.getElem?_eq_getElem (by rw [hlen]; exact hk)⟩
    rw [hro, hr, Option.map_some, Option.map_some]
    congr 1
    simp only [Function.comp]
    obtain ⟨_, _, _, hcs⟩ := row_at hro
    have hcl : row.cells.length = W.width := by rw [hcs, List.length_map, hN]
    apply List.ext_getElem?
    intro x
    rw [List.getElem?_map]
    by_cases hx : x < W.width
    · obtain ⟨c, hc⟩ : ∃ c, (mkTable ws g rk).columns[x]? = some c := ⟨_, List.getElem?_eq_getElem (by omega)⟩
      obtain ⟨y, hy⟩ : ∃ y, row.cells[x]? = some y := ⟨_, List.getElem?_eq_getElem (by omega)⟩
      rw [List.getElem?_range hx, Option.map_some, List.getElem?_zip_eq_some]
      refine ⟨?_, ?_⟩
      · rw [List.getElem?_map, hc, Option.map_some, hvar hc]
      · have := hcell hp hr hro x hx
        unfold cellAt at this
        rw [hy] at this
        rw [List.getElem?_map, hy, Option.map_some, ← this]
        rfl
    · rw [List.getElem?_eq_none (by simp; omega), List.getElem?_eq_none (by simp; omega)]
      rfl
  · rw [List.getElem?_eq_none (by rw [hlen]; omega), List.getElem?_eq_none (by omega)]
    rfl

/-- The table shows what the short program shows. -/
theorem Collated.shown (C : Collated cc ws false g ps rk rkf ord m) (T : Tracks W g ps) (hs : ∀ w ∈ ws, w.sigil ≠ []) (hne : ws ≠ [])
    (hmark : ∀ j c, (mkTable ws g rk).columns[j]? = some c → (c.variant = false ↔
      (∃ v, ∀ u ∈ g.vertices, dget rk.byVertex u = some (j + 1) ↔ u = v) ∧ ∀ w ∈ ws, ∃ ts, dget c.tokens w.sigil = some ts)) :
    markedStrings (mkTable ws g rk) = W.shown := by
  rw [C.shown_nodes T.nodes (fun n => [(W.words[n]?).getD []]) ?_ hs hne hmark]
  · unfold Work.shown
    apply List.map_congr_left
    intro r hr
    apply List.map_congr_left
    intro x _
    congr 1
    cases hn : W.nodeAt r (x + 1) with
    | none => rfl
    | some n =>
      obtain ⟨p, hp, he⟩ := T.nodes.path_of hr
      have hm : n + 2 ∈ p.inner := by
        rw [he]
        exact List.mem_map.mpr ⟨n, List.mem_of_find?_eq_some hn, rfl⟩
      obtain ⟨q, hq, hqe⟩ := List.mem_map.mp hm
      have h2 := T.nodes.bound _ (C.ginv.segs_in p hp q hq).1
      rw [hqe] at h2
      simp only [Option.map_some, Option.bind_some]
      rw [List.getElem?_eq_getElem (by omega)]
      rfl
  · intro p hp n ts h
    obtain ⟨t, ht⟩ := C.single rfl p hp _ h
    simp only at ht
    subst ht
    have := T.words p hp (n + 2) t h
    simp only [Nat.add_sub_cancel] at this
    simp [this]

end

theorem marks_indexed (env : Env) (hts : TopoSpec env.topo) (ws : List Witness) (hv : Valid ws) (hs : ∀ w ∈ ws, w.sigil ≠ []) (o : Opts)
    (ho : ExactMatching o) (g : VGraph) (rk : Ranking) (h1 : collateRanked env ws o = .ok (indexed 0 ws, g, rk)) (j : Nat) (c : Column)
    (hc : (mkTable (indexed 0 ws) g rk).columns[j]? = some c) : c.variant = false ↔
      (∃ v, ∀ u ∈ g.vertices, dget rk.byVertex u = some (j + 1) ↔ u = v) ∧ ∀ w ∈ indexed 0 ws, ∃ ts, dget c.tokens w.sigil = some ts := by
  rw [C27_variant_iff env hts ws (indexed 0 ws) hv hs o ho g rk h1 j c hc]
  refine and_congr Iff.rfl ?_
  have : ∀ (P : Str → Prop) (l : List Witness), (∀ w ∈ l, P w.sigil) ↔ ∀ s ∈ l.map Witness.sigil, P s := by
    intro P l
    simp
  rw [this (fun s => ∃ ts, dget c.tokens s = some ts) ws, this (fun s => ∃ ts, dget c.tokens s = some ts) (indexed 0 ws), indexed_sigla]

/-- C103: the rows of the table of any number of witnesses, with the marks of the columns, are those of the short program. -/
theorem C103_progressive (env : Env) (hts : TopoSpec env.topo) (ws : List Witness) (hv : Valid ws) (hs : ∀ w ∈ ws, w.sigil ≠ []) (o : Opts)
    (ho : ExactMatching o) (hf : o.pfilter = none) (hseg : o.segmentation = false) :
    ∃ t W, collateTable env ws o = .ok t ∧ Worked (ws.map strings) W ∧ markedStrings t = W.shown := by
  obtain ⟨g, rk, ps, rkf, ord, m, W, h1, C, hW, hT⟩ := worked_core env hts ws hv o ho hf hseg
  have hne : indexed 0 ws ≠ [] := by
    intro h0
    have := congrArg List.length h0
    rw [indexed_length] at this
    exact hv.1 (List.length_eq_zero_iff.mp this)
  refine ⟨mkTable (indexed 0 ws) g rk, W, ?_, hW, ?_⟩
  · unfold collateTable
    rw [h1]
    rfl
  · exact C.shown hT (indexed_sigil_ne hs) hne (marks_indexed env hts ws hv hs o ho g rk h1)

/-- Two choices that agree wherever there is something to choose. -/
theorem Spec.Work.add_congr {w : Work} {B : List Str} {f f' : Nat × Nat → Nat} (h : ∀ x j, w.same B x j = true → f (x, j) = f' (x, j)) :
    w.add B f = w.add B f' := by
  have h1 : ∀ p ∈ (aligned (w.same B) w.width B.length).2, f p = f' p := fun p hp => h p.1 p.2 (aligned_same _ _ _ p hp)
  have h2 : w.links B f = w.links B f' := firstOf_congr (fun p hp q hq => by rw [h1 p hp, h1 q hq])
  have h3 : w.nodesFor B f = w.nodesFor B f' := by
    unfold Work.nodesFor
    rw [h2]
    apply List.map_congr_left
    intro j _
    cases hj : (w.links B f').find? (fun p => decide (p.2 = j)) with
    | none => rfl
    | some p =>
      rw [Option.map_some, Option.map_some, h1 p (mem_of_firstOf (List.mem_of_find?_eq_some hj))]
  unfold Work.add
  rw [h3]

/-- Without twins there is nothing to choose. -/
theorem Spec.Work.pick_eq {w : Work} (hw : w.Untwinned) {B : List Str} {pick : Nat × Nat → Nat} (hp : w.Picks B pick) :
    w.add B pick = w.add B (w.firstFit B) := by
  apply Work.add_congr
  intro x j hs
  unfold Work.same at hs
  cases hB : B[j]? with
  | none => rw [hB] at hs; cases hs
  | some b =>
    rw [hB] at hs
    simp only [Bool.not_eq_true'] at hs
    have hne : w.fits x b ≠ [] := fun h0 => by rw [h0] at hs; cases hs
    have h1 := hp x j b hB hne
    have h2 : w.firstFit B (x, j) ∈ w.fits x b := by
      unfold Work.firstFit
      simp only [hB]
      cases hl : w.fits x b with
      | nil => exact absurd hl hne
      | cons a l => simp
    unfold Work.fits at h1 h2
    simp only [List.mem_filter, List.mem_range, Bool.and_eq_true, decide_eq_true_eq] at h1 h2
    refine List.inj_on_of_nodup_map hw (List.mem_range.mpr h1.1) (List.mem_range.mpr h2.1) ?_
    rw [h1.2.1, h1.2.2, h2.2.1, h2.2.2]

theorem workOf_snoc (ts : List (List Str)) (B : List Str) : workOf (ts ++ [B]) = (workOf ts).add B ((workOf ts).firstFit B) := by
  unfold workOf
  rw [List.foldl_append]
  rfl

/-- Without twins the short program is a function. -/
theorem Spec.Worked.unique {ts : List (List Str)} {W : Work} (h : Worked ts W) (hu : ∀ n < ts.length, (workOf (ts.take n)).Untwinned) :
    W = workOf ts := by
  induction h with
  | nil => rfl
  | @add ts w B pick _ hp ih =>
    have h1 : w = workOf ts := ih (fun n hn => by
      have := hu n (by rw [List.length_append]; omega)
      rwa [List.take_append_of_le_length (by omega)] at this)
    have h2 : w.Untwinned := by
      have := hu ts.length (by rw [List.length_append, List.length_singleton]; omega)
      rw [List.take_left] at this
      rw [h1]
      exact this
    rw [workOf_snoc, Work.pick_eq h2 hp, h1]

/-- C103: as long as no two nodes of a column have the same word, the table is a function of the words of the witnesses, and the short program
computes it. -/
theorem C103_computed (env : Env) (hts : TopoSpec env.topo) (ws : List Witness) (hv : Valid ws) (hs : ∀ w ∈ ws, w.sigil ≠ []) (o : Opts)
    (ho : ExactMatching o) (hf : o.pfilter = none) (hseg : o.segmentation = false)
    (hu : ∀ n < ws.length, (workOf ((ws.map strings).take n)).Untwinned) :
    ∃ t, collateTable env ws o = .ok t ∧ markedStrings t = (workOf (ws.map strings)).shown := by
  obtain ⟨t, W, h1, h2, h3⟩ := C103_progressive env hts ws hv hs o ho hf hseg
  refine ⟨t, h1, ?_⟩
  rw [h3, h2.unique (by rw [List.length_map]; exact hu)]

/-- C103: what the rows and marks are depends on the words alone, not on the sigla, the topological sort, the other properties of the tokens or
the layout. -/
theorem C103_words_only (env env' : Env) (hts : TopoSpec env.topo) (hts' : TopoSpec env'.topo) (ws ws' : List Witness) (hv : Valid ws)
    (hv' : Valid ws') (hs : ∀ w ∈ ws, w.sigil ≠ []) (hs' : ∀ w ∈ ws', w.sigil ≠ []) (o o' : Opts) (ho : ExactMatching o)
    (ho' : ExactMatching o') (hf : o.pfilter = none) (hf' : o'.pfilter = none) (hseg : o.segmentation = false)
    (hseg' : o'.segmentation = false) (hw : ws.map strings = ws'.map strings)
    (hu : ∀ n < ws.length, (workOf ((ws.map strings).take n)).Untwinned) :
    ∃ t t', collateTable env ws o = .ok t ∧ collateTable env' ws' o' = .ok t' ∧ markedStrings t = markedStrings t' := by
  obtain ⟨t, h1, h2⟩ := C103_computed env hts ws hv hs o ho hf hseg hu
  have hl : ws.length = ws'.length := by simpa using congrArg List.length hw
  obtain ⟨t', h3, h4⟩ := C103_computed env' hts' ws' hv' hs' o' ho' hf' hseg' (by rw [← hw, ← hl]; exact hu)
  exact ⟨t, t', h1, h3, by rw [h2, h4, hw]⟩

/-- The hypotheses are met, and the short program shows what the table of `the black cat`, `the white and black cat` and `the white cat` is. -/
example : TopoSpec exampleEnv.topo ∧ Valid threeWitnesses ∧ ExactMatching { segmentation := false } ∧
    (∀ n < threeWitnesses.length, (workOf ((threeWitnesses.map strings).take n)).Untwinned) ∧
    workOf (threeWitnesses.map strings) = ⟨[S "the", S "black", S "cat", S "white", S "and"], [[0, 1, 2], [0, 3, 4, 1, 2], [0, 3, 2]]⟩ ∧
    (workOf (threeWitnesses.map strings)).shown =
      [[(false, some [S "the"]), (true, none), (true, none), (true, some [S "black"]), (false, some [S "cat"])],
       [(false, some [S "the"]), (true, some [S "white"]), (true, some [S "and"]), (true, some [S "black"]), (false, some [S "cat"])],
       [(false, some [S "the"]), (true, some [S "white"]), (true, none), (true, none), (false, some [S "cat"])]] := by
  refine ⟨kahn_spec, threeWitnesses_valid, ⟨rfl, rfl, rfl⟩, ?_, by decide +kernel, by decide +kernel⟩
  have : ∀ n : Fin 3, (workOf ((threeWitnesses.map strings).take n)).Untwinned := by decide +kernel
  exact fun n hn => this ⟨n, hn⟩

/-- Two nodes of a column can have the same word, and then there is a choice: after three of the witnesses of `C57_spelling_can_matter`. -/
example : ¬ (workOf [[S "cat", S "a", S "b", S "c"], [S "d", S "e", S "f", S "cat", S "ran"],
    [S "p", S "q", S "r", S "cat", S "a", S "b", S "c"]]).Untwinned := by decide +kernel

end CollateX
