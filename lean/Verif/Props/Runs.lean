import Verif.Props.Neighbours
import Verif.Proofs.Runs
/-
What segmentation does to the table of two witnesses: C92.
-/

namespace CollateX
open Spec

/-- What neighbouring cells of a row hold together. -/
def Spec.joinedCells {α : Type} (cs : List (Option (List α))) : Option (List α) :=
  if cs.all Option.isNone then none else some (cs.filterMap id).flatten

/-- A row of a table with the marks of the columns. -/
def Spec.markedRow (t : Table) (r : Row) : List (Bool × Option (List Token)) := (t.columns.map Column.variant).zip r.cells

/-- A row with every run of columns of the same mark put together. -/
def Spec.mergedRuns {α : Type} (l : List (Bool × Option (List α))) : List (Bool × Option (List α)) :=
  (l.splitBy (fun x y => x.1 == y.1)).map (fun g => (g.any Prod.fst, joinedCells (g.map Prod.snd)))

/-! ### Lists -/

theorem splitByLoop_map {α β : Type} (f : α → β) (r : β → β → Bool) : ∀ (l : List α) (a : α) (g : List α) (gs : List (List α)),
    List.splitBy.loop r (l.map f) (f a) (g.map f) (gs.map (List.map f)) =
      (List.splitBy.loop (fun x y => r (f x) (f y)) l a g gs).map (List.map f)
  | [], a, g, gs => by simp [List.splitBy.loop]
  | b :: l, a, g, gs => by
    simp only [List.map_cons, List.splitBy.loop]
    cases r (f a) (f b) with
    | true => exact splitByLoop_map f r l b (a :: g) gs
    | false =>
      have := splitByLoop_map f r l b [] ((a :: g).reverse :: gs)
      simpa using this

theorem splitBy_map {α β : Type} (f : α → β) (r : β → β → Bool) (l : List α) :
    (l.map f).splitBy r = (l.splitBy (fun x y => r (f x) (f y))).map (List.map f) := by
  cases l with
  | nil => rfl
  | cons a l => exact splitByLoop_map f r l a [] []

/-- The tokens of a cell. -/
def cellList (σ : Str) (c : Column) : List Token := (dget c.tokens σ).getD []

theorem joined_cells (f : Column → Option (List Token)) (l : List Column) (h : ∀ c ∈ l, f c ≠ some []) :
    joinedCells (l.map f) = (if l.flatMap (fun c => (f c).getD []) = [] then none else some (l.flatMap (fun c => (f c).getD []))) := by
  have h1 : ((l.map f).all Option.isNone = true) ↔ l.flatMap (fun c => (f c).getD []) = [] := by
    rw [List.all_eq_true, List.flatMap_eq_nil_iff]
    constructor
    · intro hn c hc
      have := hn (f c) (List.mem_map.mpr ⟨c, hc, rfl⟩)
      rw [Option.isNone_iff_eq_none] at this
      rw [this]
      rfl
    · intro hn x hx
      obtain ⟨c, hc, rfl⟩ := List.mem_map.mp hx
      cases hfc : f c with
      | none => rfl
      | some ts =>
        have := hn c hc
        rw [hfc] at this
        simp only [Option.getD_some] at this
        subst this
        exact absurd hfc (h c hc)
  have h2 : ((l.map f).filterMap id).flatten = l.flatMap (fun c => (f c).getD []) := by
    clear h h1
    induction l with
    | nil => rfl
    | cons c l ih =>
      rw [List.map_cons, List.flatMap_cons, ← ih]
      cases f c <;> simp
  unfold joinedCells
  rw [h2]
  by_cases h3 : l.flatMap (fun c => (f c).getD []) = []
  · rw [if_pos h3, if_pos (h1.mpr h3)]
  · rw [if_neg h3, if_neg (fun h => h3 (h1.mp h))]

/-! ### The columns of two witnesses -/

section
variable {env : Env} {wA wB a b : Witness} {o : Opts} {seg : Bool} {g : VGraph} {p q : WPath} {rk : Ranking} {rkf : VId → Nat}
  {ord : List VId} {m : Nat}

theorem Collated.pair {cc : CharClass} (C : Collated cc [a, b] seg g [p, q] rk rkf ord m) :
    p.sigil = a.sigil ∧ p.text = a.tokens ∧ q.sigil = b.sigil ∧ q.text = b.tokens := by
  obtain ⟨p1, h1, h2, h3⟩ := C.at (k := 0) (w := a) rfl
  obtain ⟨q1, k1, k2, k3⟩ := C.at (k := 1) (w := b) rfl
  obtain rfl : p = p1 := by simpa using h1
  obtain rfl : q = q1 := by simpa using k1
  exact ⟨h2, h3, k2, k3⟩

/-- The cells of a column, seen from the two paths. -/
theorem two_cells (hts : TopoSpec env.topo) (hv : Valid [wA, wB]) (hs : ∀ w ∈ [wA, wB], w.sigil ≠ []) (ho : ExactMatching o)
    (h : collateRanked env [wA, wB] o = .ok ([a, b], g, rk)) (hsi : ∀ w ∈ [a, b], w.sigil ≠ [])
    (C : Collated env.cc [a, b] seg g [p, q] rk rkf ord m) {j : Nat} {c : Column} (hc : (mkTable [a, b] g rk).columns[j]? = some c) :
    (∀ ts, dget c.tokens a.sigil = some ts ↔ ∃ v, rkf v = j + 1 ∧ (v, ts) ∈ p.segs) ∧
    (∀ ts, dget c.tokens b.sigil = some ts ↔ ∃ v, rkf v = j + 1 ∧ (v, ts) ∈ q.segs) := by
  obtain ⟨e, _, _, _, _, _, _, hcell⟩ := C21_of_collation env hts _ _ hv hs o ho g rk h
  obtain ⟨s1, _, s2, _⟩ := C.pair
  have key : ∀ {r : WPath}, r ∈ [p, q] → ∀ ts, dget c.tokens r.sigil = some ts ↔ ∃ v, rkf v = j + 1 ∧ (v, ts) ∈ r.segs := by
    intro r hr ts
    rw [hcell j c hc]
    constructor
    · rintro ⟨v, hvm, hvr, hvc⟩
      obtain ⟨r', hr', he, hm⟩ := (C.carries hsi).mp hvc
      obtain rfl := sigil_unique C.ginv hr' hr he
      rw [C.rank.byVertex hvm] at hvr
      exact ⟨v, Option.some.inj hvr, hm⟩
    · rintro ⟨v, hvr, hm⟩
      have hvm := (C.ginv.segs_in r hr _ hm).1
      exact ⟨v, hvm, by rw [C.rank.byVertex hvm, hvr], (C.carries hsi).mpr ⟨r, hr, rfl, hm⟩⟩
  rw [← s1, ← s2]
  exact ⟨key (by simp), key (by simp)⟩

/-- A column is a strip of the two texts. -/
theorem two_strip (hts : TopoSpec env.topo) (hv : Valid [wA, wB]) (hs : ∀ w ∈ [wA, wB], w.sigil ≠ []) (ho : ExactMatching o)
    (hab : indexed 0 [wA, wB] = [a, b]) (h : collateRanked env [wA, wB] o = .ok ([a, b], g, rk))
    (C : Collated env.cc [a, b] seg g [p, q] rk rkf ord m) {j : Nat} {c : Column} (hc : (mkTable [a, b] g rk).columns[j]? = some c) :
    Strip (fun t => ∃ u, SamePlace p q t u) (fun u => ∃ t, SamePlace p q t u) (c.variant, cellList a.sigil c, cellList b.sigil c) ∧
      dget c.tokens a.sigil ≠ some [] ∧ dget c.tokens b.sigil ≠ some [] := by
  have hsi : ∀ w ∈ [a, b], w.sigil ≠ [] := by rw [← hab]; exact indexed_sigil_ne hs
  have hnd : ∀ w ∈ [a, b], w.tokens.Nodup := by
    intro w hw
    rw [← hab] at hw
    obtain ⟨k, hk⟩ := List.getElem?_of_mem hw
    exact hv.tokens_nodup hk
  have hsig : a.sigil = wA.sigil ∧ b.sigil = wB.sigil := by
    have := indexed_sigla 0 [wA, wB]
    rw [hab] at this
    simpa using this
  obtain ⟨cA, cB⟩ := two_cells hts hv hs ho h hsi C hc
  obtain ⟨s1, t1, s2, t2⟩ := C.pair
  have hpm : p ∈ [p, q] := by simp
  have hqm : q ∈ [p, q] := by simp
  have hvar := C27_variant_iff env hts _ _ hv hs o ho g rk h j c hc
  have neA : ∀ ts, dget c.tokens a.sigil = some ts → ts ≠ [] := by
    intro ts hts
    obtain ⟨v, _, hm⟩ := (cA ts).mp hts
    exact (C.ginv.segs_in p hpm _ hm).2.2.2
  have neB : ∀ ts, dget c.tokens b.sigil = some ts → ts ≠ [] := by
    intro ts hts
    obtain ⟨v, _, hm⟩ := (cB ts).mp hts
    exact (C.ginv.segs_in q hqm _ hm).2.2.2
  have inner : ∀ {r : WPath} {v : VId} {ts : List Token}, (v, ts) ∈ r.segs → v ∈ r.path := fun hm =>
    WPath.inner_path (List.mem_map.mpr ⟨_, hm, rfl⟩)
  -- a vertex of both witnesses fills the column
  have full : ∀ v ts us, rkf v = j + 1 → (v, ts) ∈ p.segs → (v, us) ∈ q.segs → c.variant = false := by
    intro v ts us hr h1 h2
    refine hvar.mpr ⟨⟨v, ?_⟩, ?_⟩
    · intro u hu
      rw [C.rank.byVertex hu]
      constructor
      · intro hur
        have hur := Option.some.inj hur
        have hus : u ≠ startV := by
          rintro rfl
          have := (C.start_rank (by simp) hu).mpr rfl
          omega
        have hue : u ≠ endV := by
          rintro rfl
          have hb := C.ginv.rank_bounds (C.ne (by simp)) (h := rkf) (fun p hp => C.lt (u := p.1) (v := p.2) hp)
          have hv1 := C.ginv.segs_in p hpm _ h1
          have := (hb v hv1.1).2 hv1.2.2.1
          omega
        obtain ⟨r, hr', hur'⟩ := C.ginv.cover u hu hus hue
        have hup := WPath.inner_path hur'
        simp only [List.mem_cons, List.not_mem_nil, or_false] at hr'
        rcases hr' with rfl | rfl
        · exact C.same_rank hpm hup (inner h1) (by omega)
        · exact C.same_rank hqm hup (inner h2) (by omega)
      · rintro rfl
        rw [hr]
    · intro w hw
      simp only [List.mem_cons, List.not_mem_nil, or_false] at hw
      rcases hw with rfl | rfl
      · exact ⟨ts, by rw [← hsig.1]; exact (cA ts).mpr ⟨v, hr, h1⟩⟩
      · exact ⟨us, by rw [← hsig.2]; exact (cB us).mpr ⟨v, hr, h2⟩⟩
  refine ⟨⟨?_, ?_⟩, fun h0 => neA _ h0 rfl, fun h0 => neB _ h0 rfl⟩
  · intro h0
    simp only at h0
    obtain ⟨⟨v, huniq⟩, hall⟩ := hvar.mp h0
    obtain ⟨ts, hts'⟩ := hall wA (by simp)
    obtain ⟨us, hus'⟩ := hall wB (by simp)
    rw [← hsig.1] at hts'
    rw [← hsig.2] at hus'
    obtain ⟨x, hx, hxm⟩ := (cA ts).mp hts'
    obtain ⟨y, hy, hym⟩ := (cB us).mp hus'
    have hxv := (huniq x (C.ginv.segs_in p hpm _ hxm).1).mp (by rw [C.rank.byVertex (C.ginv.segs_in p hpm _ hxm).1, hx])
    have hyv := (huniq y (C.ginv.segs_in q hqm _ hym).1).mp (by rw [C.rank.byVertex (C.ginv.segs_in q hqm _ hym).1, hy])
    subst hxv
    subst hyv
    have hlen : ts.length = us.length := by
      have := congrArg List.length (C.uniform p hpm q hqm y ts us hxm hym)
      simpa using this
    simp only [cellList, hts', hus', Option.getD_some]
    refine ⟨neA ts hts', hlen, ?_, ?_⟩
    · intro t ht
      obtain ⟨k, hk⟩ := List.getElem?_of_mem ht
      obtain ⟨u, hu⟩ : ∃ u, us[k]? = some u := by
        have := (List.getElem?_eq_some_iff.mp hk).1
        exact ⟨us[k]'(by omega), List.getElem?_eq_getElem _⟩
      exact ⟨u, y, ts, us, k, hxm, hym, hk, hu⟩
    · intro u hu
      obtain ⟨k, hk⟩ := List.getElem?_of_mem hu
      obtain ⟨t, ht⟩ : ∃ t, ts[k]? = some t := by
        have := (List.getElem?_eq_some_iff.mp hk).1
        exact ⟨ts[k]'(by omega), List.getElem?_eq_getElem _⟩
      exact ⟨t, y, ts, us, k, hxm, hym, ht, hk⟩
  · intro h0
    simp only at h0
    refine ⟨?_, ?_, ?_⟩
    · obtain ⟨_, _, h3⟩ := C26_table_shape env hts [wA, wB] hv hs o ho (mkTable [a, b] g rk) (by unfold collateTable; rw [h]; rfl)
      obtain ⟨row, hrow, ts, hts'⟩ := h3 j (List.getElem?_eq_some_iff.mp hc).1
      rw [mkTable_rows] at hrow
      obtain ⟨w, hw, rfl⟩ := List.mem_map.mp hrow
      simp only [List.getElem?_map, hc, Option.map_some, Option.some.injEq] at hts'
      simp only [List.mem_cons, List.not_mem_nil, or_false] at hw
      rcases hw with rfl | rfl
      · left
        simp only [cellList, hts', Option.getD_some]
        exact neA ts hts'
      · right
        simp only [cellList, hts', Option.getD_some]
        exact neB ts hts'
    · rintro t ht ⟨u, v, ts', us', k, h1, h2, h3, h4⟩
      cases hd : dget c.tokens a.sigil with
      | none => simp [cellList, hd] at ht
      | some ts =>
        simp only [cellList, hd, Option.getD_some] at ht
        obtain ⟨x, hx, hxm⟩ := (cA ts).mp hd
        have hn : (p.segs.flatMap Prod.snd).Nodup := by
          have : p.text.Nodup := by rw [t1]; exact hnd a (by simp)
          exact this
        have := seg_unique hn hxm h1 ht (List.mem_of_getElem? h3)
        injection this with e1 e2
        subst e1
        rw [full x ts' us' hx h1 h2] at h0
        cases h0
    · rintro u hu ⟨t, v, ts', us', k, h1, h2, h3, h4⟩
      cases hd : dget c.tokens b.sigil with
      | none => simp [cellList, hd] at hu
      | some us =>
        simp only [cellList, hd, Option.getD_some] at hu
        obtain ⟨x, hx, hxm⟩ := (cB us).mp hd
        have hn : (q.segs.flatMap Prod.snd).Nodup := by
          have : q.text.Nodup := by rw [t2]; exact hnd b (by simp)
          exact this
        have := seg_unique hn hxm h2 hu (List.mem_of_getElem? h4)
        injection this with e1 e2
        subst e1
        rw [full x ts' us' hx h1 h2] at h0
        cases h0

/-- The strips are cut from the two texts. -/
theorem two_texts {cc : CharClass} (hsi : ∀ w ∈ [a, b], w.sigil ≠ []) (C : Collated cc [a, b] seg g [p, q] rk rkf ord m) :
    (mkTable [a, b] g rk).columns.flatMap (cellList a.sigil) = a.tokens ∧
    (mkTable [a, b] g rk).columns.flatMap (cellList b.sigil) = b.tokens := by
  have flat : ∀ (f : Column → Option (List Token)) (l : List Column),
      l.flatMap (fun c => (f c).getD []) = ((l.map f).filterMap id).flatten := by
    intro f l
    induction l with
    | nil => rfl
    | cons c l ih =>
      rw [List.map_cons, List.flatMap_cons, ih]
      cases f c <;> simp
  have key : ∀ {k : Nat} {w : Witness}, [a, b][k]? = some w →
      (mkTable [a, b] g rk).columns.flatMap (cellList w.sigil) = w.tokens := by
    intro k w hw
    obtain ⟨r, _, _, htext, hrow⟩ := C.row hw (hsi w (List.mem_of_getElem? hw))
    have := flat (fun c => dget c.tokens w.sigil) (mkTable [a, b] g rk).columns
    rw [hrow] at this
    rw [← htext]
    unfold WPath.text
    rw [List.flatMap_def (l := r.segs)]
    exact this
  exact ⟨key (k := 0) rfl, key (k := 1) rfl⟩

/-- With segmentation, neighbouring columns of two witnesses have different marks. -/
theorem two_alternate (hts : TopoSpec env.topo) (hv : Valid [wA, wB]) (hs : ∀ w ∈ [wA, wB], w.sigil ≠ []) (ho : ExactMatching o)
    (hseg : o.segmentation = true) (hab : indexed 0 [wA, wB] = [a, b]) (h : collateRanked env [wA, wB] o = .ok ([a, b], g, rk))
    (C : Collated env.cc [a, b] seg g [p, q] rk rkf ord m) :
    (mkTable [a, b] g rk).columns.IsChain (fun c d => c.variant ≠ d.variant) := by
  have hsi : ∀ w ∈ [a, b], w.sigil ≠ [] := by rw [← hab]; exact indexed_sigil_ne hs
  have ht : collateTable env [wA, wB] o = .ok (mkTable [a, b] g rk) := by unfold collateTable; rw [h]; rfl
  rw [List.isChain_iff_getElem]
  intro j hj
  have hc : (mkTable [a, b] g rk).columns[j]? = some (mkTable [a, b] g rk).columns[j] := List.getElem?_eq_getElem _
  have hd : (mkTable [a, b] g rk).columns[j + 1]? = some (mkTable [a, b] g rk).columns[j + 1] := List.getElem?_eq_getElem _
  generalize (mkTable [a, b] g rk).columns[j] = c at hc
  generalize (mkTable [a, b] g rk).columns[j + 1] = d at hd
  have h1 := C80_not_both_unanimous env hts _ hv hs o ho hseg _ ht j c d hc hd
  intro he
  have hcv : c.variant = true := by rcases h1 with h1 | h1 <;> simp_all
  have hdv : d.variant = true := he ▸ hcv
  have S1 := (two_strip hts hv hs ho hab h C hc).1.differ hcv
  have S2 := (two_strip hts hv hs ho hab h C hd).1.differ hdv
  obtain ⟨cA, cB⟩ := two_cells hts hv hs ho h hsi C hc
  obtain ⟨dA, dB⟩ := two_cells hts hv hs ho h hsi C hd
  obtain ⟨s1, _, s2, _⟩ := C.pair
  have hpm : p ∈ [p, q] := by simp
  have hqm : q ∈ [p, q] := by simp
  -- no vertex of a marked column is on both paths
  have apart : ∀ {v : VId} {ts us : List Token}, (v, ts) ∈ p.segs → (v, us) ∈ q.segs → rkf v = j + 1 ∨ rkf v = j + 2 → False := by
    intro v ts us k1 k2 hr
    obtain ⟨t, ts', rfl⟩ := List.exists_cons_of_ne_nil (C.ginv.segs_in p hpm _ k1).2.2.2
    obtain ⟨u, us', rfl⟩ := List.exists_cons_of_ne_nil (C.ginv.segs_in q hqm _ k2).2.2.2
    have hsp : ∃ u, SamePlace p q t u := ⟨u, v, t :: ts', u :: us', 0, k1, k2, rfl, rfl⟩
    rcases hr with hr | hr
    · refine S1.2.1 t ?_ hsp
      simp [cellList, (cA _).mpr ⟨v, hr, k1⟩]
    · refine S2.2.1 t ?_ hsp
      simp [cellList, (dA _).mpr ⟨v, hr, k1⟩]
  -- somebody has tokens in both columns
  obtain ⟨_, _, h3⟩ := C26_table_shape env hts [wA, wB] hv hs o ho _ ht
  obtain ⟨row, hrow, ts, hts'⟩ := h3 (j + 1) hj
  obtain ⟨row', hrow', ⟨us, hus, _⟩, vs, hvs⟩ := C80_no_needless_gap env hts _ hv hs o ho _ ht j row hrow ts hts'
  rw [mkTable_rows] at hrow'
  obtain ⟨w, hw, rfl⟩ := List.mem_map.mp hrow'
  simp only [List.getElem?_map, hc, hd, Option.map_some, Option.some.injEq] at hus hvs
  obtain ⟨r, hr, hx⟩ : ∃ r ∈ [p, q], (∃ x, rkf x = j + 1 ∧ (x, vs) ∈ r.segs) ∧ ∃ y, rkf y = j + 2 ∧ (y, us) ∈ r.segs := by
    simp only [List.mem_cons, List.not_mem_nil, or_false] at hw
    rcases hw with rfl | rfl
    · exact ⟨p, hpm, (cA vs).mp hvs, (dA us).mp hus⟩
    · exact ⟨q, hqm, (cB vs).mp hvs, (dB us).mp hus⟩
  obtain ⟨⟨x, hx1, hx2⟩, y, hy1, hy2⟩ := hx
  have hxi := C.ginv.segs_in r hr _ hx2
  have hyi := C.ginv.segs_in r hr _ hy2
  obtain ⟨σ, hσ⟩ := C80_groups_differ env hts _ _ hv hs o ho hseg g rk h x y (j + 1) hxi.1 hxi.2.1 hyi.1 hyi.2.2.1
    (by rw [C.rank.byVertex hxi.1, hx1]) (by rw [C.rank.byVertex hyi.1, hy1])
  -- so one of the two vertices is on another path as well
  have other : ∀ {v : VId} {ts : List Token}, (v, ts) ∈ r.segs → rkf v = j + 1 ∨ rkf v = j + 2 → ∀ σ,
      (∃ ts, CarriesAt g v σ ts) ↔ σ = r.sigil := by
    intro v ts hm hrk σ
    constructor
    · rintro ⟨ts', hts''⟩
      obtain ⟨r', hr', he', hm'⟩ := (C.carries hsi).mp hts''
      by_cases hrr : r' = r
      · rw [← he', hrr]
      · exfalso
        simp only [List.mem_cons, List.not_mem_nil, or_false] at hr hr'
        rcases hr with rfl | rfl <;> rcases hr' with rfl | rfl
        · exact hrr rfl
        · exact apart hm hm' hrk
        · exact apart hm' hm hrk
        · exact hrr rfl
    · rintro rfl
      exact ⟨ts, (C.carries hsi).mpr ⟨r, hr, rfl, hm⟩⟩
  exact hσ ((other hx2 (Or.inl hx1) σ).trans (other hy2 (Or.inr hy1) σ).symm)

end

/-! ### C92 -/

/-- One row of the table with segmentation, from the strips. -/
theorem merged_row {cols cols' : List Column} {σ : Str} {f : Bool × List Token × List Token → List Token}
    {strip : Column → Bool × List Token × List Token}
    (hf : ∀ l : List Column, f (glue (l.map strip)) = l.flatMap (cellList σ)) (hfs : ∀ c, f (strip c) = cellList σ c) (hm : ∀ c, (strip c).1 = c.variant)
    (hne : ∀ c ∈ cols, dget c.tokens σ ≠ some []) (hne' : ∀ c ∈ cols', dget c.tokens σ ≠ some [])
    (h : cols'.map strip = ((cols.map strip).splitBy (fun x y => x.1 == y.1)).map glue) :
    cols'.map (fun c => (c.variant, dget c.tokens σ)) = mergedRuns (cols.map (fun c => (c.variant, dget c.tokens σ))) := by
  let opt : List Token → Option (List Token) := fun l => if l = [] then none else some l
  have hopt : ∀ c : Column, dget c.tokens σ ≠ some [] → dget c.tokens σ = opt (cellList σ c) := by
    intro c hc
    unfold cellList
    cases hd : dget c.tokens σ with
    | none => rfl
    | some l =>
      have : l ≠ [] := by
        rintro rfl
        exact hc hd
      simp [opt, this]
  rw [splitBy_map, List.map_map] at h
  have h2 := congrArg (List.map (fun x => (x.1, opt (f x)))) h
  rw [List.map_map, List.map_map] at h2
  have e1 : cols'.map (fun c => (c.variant, dget c.tokens σ)) = cols'.map ((fun x => (x.1, opt (f x))) ∘ strip) := by
    apply List.map_congr_left
    intro c hc
    simp only [Function.comp, hm, hfs, ← hopt c (hne' c hc)]
  rw [e1, h2]
  unfold mergedRuns
  rw [splitBy_map, List.map_map]
  simp only [hm]
  apply List.map_congr_left
  intro grp hg
  have hgne := List.ne_nil_of_mem_splitBy hg
  have hch := List.isChain_of_mem_splitBy hg
  have hmem : ∀ c ∈ grp, c ∈ cols := by
    intro c hc
    rw [← List.flatten_splitBy (fun x y : Column => x.variant == y.variant) cols]
    exact List.mem_flatten.mpr ⟨grp, hg, hc⟩
  simp only [Function.comp, hf]
  refine Prod.ext ?_ ?_
  · simp only
    cases grp with
    | nil => exact absurd rfl hgne
    | cons c l =>
      simp only [glue, List.map_cons, List.head?_cons, Option.map_some, Option.getD_some, hm]
      have hall := chain_marks (f := Column.variant) hch
      cases hcv : c.variant with
      | true => simp [hcv]
      | false =>
        symm
        rw [List.any_eq_false]
        intro x hx
        have hx1 : x.1 = false := by
          rcases List.mem_cons.mp hx with rfl | hx
          · rfl
          · obtain ⟨d, hd, rfl⟩ := List.mem_map.mp hx
            exact (hall c (by simp) d (List.mem_cons_of_mem _ hd)).symm.trans hcv
        simp [hx1]
  · simp only
    rw [List.map_map]
    rw [show (Prod.snd ∘ fun c : Column => (c.variant, dget c.tokens σ)) = (fun c => dget c.tokens σ) from rfl]
    rw [joined_cells _ grp (fun c hc => hne c (hmem c hc))]
    rfl

/-- C92. The table of two witnesses with segmentation is the table without segmentation, with every run of neighbouring columns that have
the same variant mark put together. With any filter. -/
theorem C92_segmentation_merges_runs (env : Env) (hts : TopoSpec env.topo) (wA wB : Witness) (hv : Valid [wA, wB])
    (hs : ∀ w ∈ [wA, wB], w.sigil ≠ []) (o : Opts) (ho : ExactMatching o) :
    ∃ t t', collateTable env [wA, wB] { o with segmentation := false } = .ok t ∧
      collateTable env [wA, wB] { o with segmentation := true } = .ok t' ∧
      t'.rows.map (fun r => (r.header, markedRow t' r)) = t.rows.map (fun r => (r.header, mergedRuns (markedRow t r))) := by
  obtain ⟨g, ps, rk, rkf, ord, m, g', ps', rk', rkf', ord', m', h1, C, h2, C', G⟩ :=
    collateRanked_both env hts hv o ho.astar ho.detect ho.near
  have hsi := indexed_sigil_ne hs
  have hwlen : (indexed 0 [wA, wB]).length = 2 := indexed_length _ _
  obtain ⟨a, b, hab⟩ : ∃ a b, indexed 0 [wA, wB] = [a, b] := by
    match indexed 0 [wA, wB], hwlen with
    | [a, b], _ => exact ⟨a, b, rfl⟩
  rw [hab] at h1 C h2 C' hsi
  have two : ∀ {ps : List WPath}, ps.length = 2 → ∃ p q, ps = [p, q] := by
    intro ps hl
    match ps, hl with
    | [p, q], _ => exact ⟨p, q, rfl⟩
  obtain ⟨p, q, rfl⟩ := two C.length
  obtain ⟨p', q', rfl⟩ := two C'.length
  obtain ⟨s1, _, s2, _⟩ := C.pair
  obtain ⟨s1', _, s2', _⟩ := C'.pair
  have ho1 : ExactMatching { o with segmentation := false } := ⟨ho.astar, ho.detect, ho.near⟩
  have ho2 : ExactMatching { o with segmentation := true } := ⟨ho.astar, ho.detect, ho.near⟩
  have hplace : ∀ t u, SamePlace p' q' t u ↔ SamePlace p q t u := fun t u =>
    G.places p' (by simp) q' (by simp) p (by simp) q (by simp) (s1'.trans s1.symm) (s2'.trans s2.symm) t u
  have S : ∀ c ∈ (mkTable [a, b] g rk).columns, Strip (fun t => ∃ u, SamePlace p q t u) (fun u => ∃ t, SamePlace p q t u)
      (c.variant, cellList a.sigil c, cellList b.sigil c) ∧ dget c.tokens a.sigil ≠ some [] ∧ dget c.tokens b.sigil ≠ some [] := by
    intro c hc
    obtain ⟨j, hj⟩ := List.getElem?_of_mem hc
    exact two_strip hts hv hs ho1 hab h1 C hj
  have S' : ∀ c ∈ (mkTable [a, b] g' rk').columns, Strip (fun t => ∃ u, SamePlace p' q' t u) (fun u => ∃ t, SamePlace p' q' t u)
      (c.variant, cellList a.sigil c, cellList b.sigil c) ∧ dget c.tokens a.sigil ≠ some [] ∧ dget c.tokens b.sigil ≠ some [] := by
    intro c hc
    obtain ⟨j, hj⟩ := List.getElem?_of_mem hc
    exact two_strip hts hv hs ho2 hab h2 C' hj
  simp only [hplace] at S'
  obtain ⟨x1, x2⟩ := two_texts hsi C
  obtain ⟨x1', x2'⟩ := two_texts hsi C'
  let strip : Column → Bool × List Token × List Token := fun c => (c.variant, cellList a.sigil c, cellList b.sigil c)
  have key := glued_eq (R := (mkTable [a, b] g rk).columns.map strip) (R' := (mkTable [a, b] g' rk').columns.map strip)
    (P := fun t => ∃ u, SamePlace p q t u) (Q := fun u => ∃ t, SamePlace p q t u)
    (by
      intro y hy
      obtain ⟨c, hc, rfl⟩ := List.mem_map.mp hy
      exact (S c hc).1)
    (by
      intro y hy
      obtain ⟨c, hc, rfl⟩ := List.mem_map.mp hy
      exact (S' c hc).1)
    (by
      rw [List.isChain_map]
      exact two_alternate hts hv hs ho2 rfl hab h2 C')
    (by
      rw [List.flatMap_map, List.flatMap_map]
      exact x1.trans x1'.symm)
    (by
      rw [List.flatMap_map, List.flatMap_map]
      exact x2.trans x2'.symm)
  refine ⟨mkTable [a, b] g rk, mkTable [a, b] g' rk', ?_, ?_, ?_⟩
  · unfold collateTable; rw [h1]; rfl
  · unfold collateTable; rw [h2]; rfl
  · have zip : ∀ (l : List Column) (σ : Str), (l.map Column.variant).zip (l.map (fun c => dget c.tokens σ)) =
        l.map (fun c => (c.variant, dget c.tokens σ)) := by
      intro l σ
      rw [List.zip_map']
    rw [mkTable_rows, mkTable_rows]
    unfold markedRow
    simp only [List.map_cons, List.map_nil, zip]
    rw [merged_row (strip := strip) (f := fun x => x.2.1) (σ := a.sigil) (fun l => by simp [glue, strip, List.flatMap_map]) (fun _ => rfl)
        (fun _ => rfl) (fun c hc => (S c hc).2.1) (fun c hc => (S' c hc).2.1) key,
      merged_row (strip := strip) (f := fun x => x.2.2) (σ := b.sigil) (fun l => by simp [glue, strip, List.flatMap_map]) (fun _ => rfl)
        (fun _ => rfl) (fun c hc => (S c hc).2.2) (fun c hc => (S' c hc).2.2) key]

/-! ### Cases, and three witnesses -/

/-- The same as strings. -/
def Spec.markedStrings (t : Table) : List (List (Bool × Option (List Str))) :=
  t.rows.map (fun r => (markedRow t r).map (fun x => (x.1, x.2.map (List.map Token.str))))

theorem markedStrings_eq (t : Table) : markedStrings t =
    (tableSummary t).cells.map (fun r => (tableSummary t).variant.zip r) := by
  unfold markedStrings tableSummary markedRow
  simp only [List.map_map]
  apply List.map_congr_left
  intro r _
  simp only [Function.comp]
  rw [List.zip_map_right]
  rfl

/-- Three witnesses that differ in two neighbouring words, in different ways. -/
def threeWays : List Witness := [wordsWitness "A" ["a", "b", "c"], wordsWitness "B" ["a", "b", "d"], wordsWitness "C" ["a", "e", "c"]]

/-- C92 is about two witnesses: the table of these three has two neighbouring variant columns with segmentation as well. -/
theorem C92_three : Valid threeWays ∧
    (collateTable exampleEnv threeWays { segmentation := true }).map tableSummary =
      .ok ⟨[false, true, true], [S "A", S "B", S "C"], [[some [S "a"], some [S "b"], some [S "c"]], [some [S "a"], some [S "b"], some [S "d"]],
        [some [S "a"], some [S "e"], some [S "c"]]]⟩ :=
  ⟨valid_of_check (by decide) (by decide) (by decide) (by decide), by decide +kernel⟩

/-- Two witnesses that meet the hypotheses of C92, with a common run, a different run and another common run; and their tables. -/
example : Valid [wordsWitness "A" ["a", "b", "x", "y", "c"], wordsWitness "B" ["a", "b", "z", "c"]] ∧
    (∀ w ∈ [wordsWitness "A" ["a", "b", "x", "y", "c"], wordsWitness "B" ["a", "b", "z", "c"]], w.sigil ≠ []) ∧ ExactMatching {} ∧
    (collateTable exampleEnv [wordsWitness "A" ["a", "b", "x", "y", "c"], wordsWitness "B" ["a", "b", "z", "c"]] { segmentation := false }).map
        tableSummary =
      .ok ⟨[false, false, true, true, false], [S "A", S "B"],
        [[some [S "a"], some [S "b"], some [S "x"], some [S "y"], some [S "c"]],
          [some [S "a"], some [S "b"], some [S "z"], none, some [S "c"]]]⟩ ∧
    (collateTable exampleEnv [wordsWitness "A" ["a", "b", "x", "y", "c"], wordsWitness "B" ["a", "b", "z", "c"]] { segmentation := true }).map
        tableSummary =
      .ok ⟨[false, true, false], [S "A", S "B"],
        [[some [S "a", S "b"], some [S "x", S "y"], some [S "c"]], [some [S "a", S "b"], some [S "z"], some [S "c"]]]⟩ :=
  ⟨valid_of_check (by decide) (by decide) (by decide) (by decide), by decide, ⟨rfl, rfl, rfl⟩, by decide +kernel, by decide +kernel⟩

end CollateX
