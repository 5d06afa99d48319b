import Verif.Props.Ranks
import Verif.Props.Table
import Verif.Proofs.Filter
/-
Paths without a vertex in common: their ranks, their segments and their rows.
-/

namespace CollateX
open Spec

/-- No two paths share an inner vertex. -/
def Apart (ps : List WPath) : Prop :=
  ∀ (k l : Nat) (p q : WPath), ps[k]? = some p → ps[l]? = some q → k ≠ l → ∀ v, v ∈ p.inner → v ∉ q.inner

theorem Apart.eq {ps : List WPath} (h : Apart ps) {p q : WPath} (hp : p ∈ ps) (hq : q ∈ ps) {v : VId} (h1 : v ∈ p.inner)
    (h2 : v ∈ q.inner) : p = q := by
  obtain ⟨k, hk⟩ := List.getElem?_of_mem hp
  obtain ⟨l, hl⟩ := List.getElem?_of_mem hq
  by_cases hkl : k = l
  · subst hkl
    rw [hk] at hl
    exact Option.some.inj hl
  · exact absurd h2 (h k l p q hk hl hkl v h1)

theorem apart_join (cc : CharClass) : StepInv cc (fun _ ps => Apart ps) := by
  intro g ps v c x hg J hvs _ _ ha k l p q hp hq hkl u h1 h2
  rw [List.getElem?_map] at hp hq
  obtain ⟨p', hp', rfl⟩ := Option.map_eq_some_iff.mp hp
  obtain ⟨q', hq', rfl⟩ := Option.map_eq_some_iff.mp hq
  exact ha k l p' q' hp' hq' hkl u ((J.mem_inner hg hvs (List.mem_of_getElem? hp')).mp h1).1
    ((J.mem_inner hg hvs (List.mem_of_getElem? hq')).mp h2).1

section
variable {cc : CharClass} {ws : List Witness} {seg : Bool} {g : VGraph} {ps : List WPath} {rk : Ranking} {rkf : VId → Nat}
  {ord : List VId} {m : Nat}

theorem inner_at_path {p : WPath} {i : Nat} {v : VId} (h : p.inner[i]? = some v) : p.path[i + 1]? = some v := by
  unfold WPath.path
  rw [List.getElem?_cons_succ, List.getElem?_append_left (List.getElem?_eq_some_iff.mp h).1, h]

theorem mem_path_inner {p : WPath} {v : VId} (h : v ∈ p.path) (h1 : v ≠ startV) (h2 : v ≠ endV) : v ∈ p.inner := by
  unfold WPath.path at h
  simp only [List.mem_cons, List.mem_append, List.not_mem_nil, or_false] at h
  rcases h with h | h | h
  · exact absurd h h1
  · exact h
  · exact absurd h h2

/-- The vertices of a path that shares nothing have their positions as ranks. -/
theorem Apart.rank (ha : Apart ps) (C : Collated cc ws seg g ps rk rkf ord m) (hne : ws ≠ []) {p : WPath} (hp : p ∈ ps) :
    ∀ (i : Nat) (v : VId), p.inner[i]? = some v → rkf v = i + 1
  | i, v, hi => by
    have hvi := List.mem_of_getElem? hi
    obtain ⟨q0, hq0, hq0e⟩ := List.mem_map.mp hvi
    obtain ⟨hvm, hvs, hve, _⟩ := C.ginv.segs_in p hp q0 hq0
    rw [hq0e] at hvm hvs hve
    have hpos : 0 < rkf v := by
      rcases Nat.eq_zero_or_pos (rkf v) with h0 | h0
      · exact absurd ((C.start_rank hne hvm).mp h0) hvs
      · exact h0
    obtain ⟨u, hu, hru⟩ := C.rank.isRank.pred hvm hpos
    obtain ⟨q, hq, hcon⟩ := (C.ginv.edges_iff u v).mp hu
    have hqv := mem_path_inner hcon.mem_right hvs hve
    obtain rfl := ha.eq hp hq hvi hqv
    obtain ⟨j, hj1, hj2⟩ := consec_iff_getElem.mp hcon
    have hnd := C.ginv.path_nodup hp
    have hji : j = i := by
      obtain ⟨l1, e1⟩ := List.getElem?_eq_some_iff.mp hj2
      obtain ⟨l2, e2⟩ := List.getElem?_eq_some_iff.mp (inner_at_path hi)
      have := (hnd.getElem_inj_iff (hi := l1) (hj := l2)).mp (by rw [e1, e2])
      omega
    subst hji
    match j, hj1, hi with
    | 0, hj1, _ =>
      unfold WPath.path at hj1
      simp only [List.getElem?_cons_zero, Option.some.injEq] at hj1
      subst hj1
      have h0 : rkf startV = 0 := (C.start_rank hne (C.ginv.wf.ends _ hu).1).mpr rfl
      omega
    | j + 1, hj1, hi =>
      have hju : p.inner[j]? = some u := by
        unfold WPath.path at hj1
        rw [List.getElem?_cons_succ, List.getElem?_append_left (by
          have := (List.getElem?_eq_some_iff.mp hi).1; omega)] at hj1
        exact hj1
      have := Apart.rank ha C hne hp j u hju
      omega

/-- The rank of the end is one more than the length of the longest path. -/
theorem Apart.end (ha : Apart ps) (C : Collated cc ws seg g ps rk rkf ord m) (hne : ws ≠ []) :
    (∀ p ∈ ps, p.segs.length + 1 ≤ rkf endV) ∧ ∃ p ∈ ps, rkf endV = p.segs.length + 1 := by
  have last : ∀ p ∈ ps, ∃ v, p.inner[p.segs.length - 1]? = some v ∧ Consec p.path v endV := by
    intro p hp
    have hsne := C.ginv.segs_ne p hp
    have hlen : 0 < p.inner.length := by
      unfold WPath.inner
      rw [List.length_map]
      exact List.length_pos_iff.mpr hsne
    have hl : p.inner.length = p.segs.length := by unfold WPath.inner; rw [List.length_map]
    have hlt : p.segs.length - 1 < p.inner.length := by omega
    refine ⟨p.inner[p.segs.length - 1], List.getElem?_eq_getElem hlt, consec_iff_getElem.mpr ⟨p.segs.length, ?_, ?_⟩⟩
    · have := inner_at_path (List.getElem?_eq_getElem hlt)
      rwa [Nat.sub_add_cancel (by omega)] at this
    · unfold WPath.path
      rw [List.getElem?_cons_succ, List.getElem?_append_right (by omega), hl, Nat.sub_self]
      rfl
  constructor
  · intro p hp
    obtain ⟨v, hv, hc⟩ := last p hp
    have h1 := ha.rank C hne hp _ _ hv
    have h2 := C.rank.isRank.lt C.ginv.wf ((C.ginv.edges_iff v endV).mpr ⟨p, hp, hc⟩)
    have := List.length_pos_iff.mpr (C.ginv.segs_ne p hp)
    omega
  · have hpos : 0 < rkf endV := by
      rcases Nat.eq_zero_or_pos (rkf endV) with h0 | h0
      · exact absurd ((C.start_rank hne C.ginv.end_mem).mp h0) (by decide)
      · exact h0
    obtain ⟨u, hu, hru⟩ := C.rank.isRank.pred C.ginv.end_mem hpos
    obtain ⟨p, hp, hcon⟩ := (C.ginv.edges_iff u endV).mp hu
    refine ⟨p, hp, ?_⟩
    obtain ⟨v, hv, hc⟩ := last p hp
    have h1 := ha.rank C hne hp _ _ hv
    have hlen := List.length_pos_iff.mpr (C.ginv.segs_ne p hp)
    have huv : u = v := by
      obtain ⟨i, a1, a2⟩ := consec_iff_getElem.mp hcon
      obtain ⟨j, b1, b2⟩ := consec_iff_getElem.mp hc
      obtain ⟨l1, e1⟩ := List.getElem?_eq_some_iff.mp a2
      obtain ⟨l2, e2⟩ := List.getElem?_eq_some_iff.mp b2
      have := ((C.ginv.path_nodup hp).getElem_inj_iff (hi := l1) (hj := l2)).mp (by rw [e1, e2])
      obtain rfl : i = j := by omega
      rw [a1] at b1
      exact Option.some.inj b1
    subst huv
    omega

/-- After joining, a path that shares nothing is a single vertex. -/
theorem Apart.one (ha : Apart ps) (hg : GInv g ps) (hm : Maximal g) {p : WPath} (hp : p ∈ ps) : ∃ q, p.segs = [q] := by
  have hne := hg.segs_ne p hp
  match hs : p.segs with
  | [] => exact absurd hs hne
  | [q] => exact ⟨q, rfl⟩
  | a :: b :: rest =>
    exfalso
    have ha1 := hg.segs_in p hp a (by rw [hs]; simp)
    have hb1 := hg.segs_in p hp b (by rw [hs]; simp)
    have hnd := hg.path_nodup hp
    have hpath : p.path = startV :: a.1 :: b.1 :: (rest.map Prod.fst ++ [endV]) := by
      unfold WPath.path WPath.inner
      rw [hs]; rfl
    have hain : a.1 ∈ p.inner := by unfold WPath.inner; rw [hs]; simp
    have hbin : b.1 ∈ p.inner := by unfold WPath.inner; rw [hs]; simp
    have hcon : Consec p.path a.1 b.1 := consec_iff_getElem.mpr ⟨1, by rw [hpath]; rfl, by rw [hpath]; rfl⟩
    have a1 : p.path[1]? = some a.1 := by rw [hpath]; rfl
    have b1 : p.path[2]? = some b.1 := by rw [hpath]; rfl
    have inj : ∀ {i j : Nat} {v : VId}, p.path[i]? = some v → p.path[j]? = some v → i = j := by
      intro i j v h1 h2
      obtain ⟨l1, e1⟩ := List.getElem?_eq_some_iff.mp h1
      obtain ⟨l2, e2⟩ := List.getElem?_eq_some_iff.mp h2
      exact (hnd.getElem_inj_iff (hi := l1) (hj := l2)).mp (by rw [e1, e2])
    refine hm a.1 b.1 ha1.2.1 ((joinable_iff hg.edges_nd).mpr ⟨(hg.edges_iff _ _).mpr ⟨p, hp, hcon⟩, ?_, hb1.2.2.1, ?_⟩)
    · intro c hc
      obtain ⟨q, hq, hqc⟩ := (hg.edges_iff _ _).mp hc
      obtain rfl := ha.eq hp hq hain (mem_path_inner hqc.mem_left ha1.2.1 ha1.2.2.1)
      obtain ⟨i, h1, h2⟩ := consec_iff_getElem.mp hqc
      obtain rfl := inj h1 a1
      rw [b1] at h2
      exact (Option.some.inj h2).symm
    · intro c hc
      obtain ⟨q, hq, hqc⟩ := (hg.edges_iff _ _).mp hc
      obtain rfl := ha.eq hp hq hbin (mem_path_inner hqc.mem_right hb1.2.1 hb1.2.2.1)
      obtain ⟨i, h1, h2⟩ := consec_iff_getElem.mp hqc
      have := inj h2 b1
      obtain rfl : i = 1 := by omega
      rw [a1] at h1
      exact (Option.some.inj h1).symm

/-- The row of a path that shares nothing: its segments one after the other, then nothing. -/
theorem cells_eq {cells : List (Option (List Token))} {l : List (List Token)} (hlen : l.length ≤ cells.length)
    (h : ∀ j, j < cells.length → ∀ ts, cells[j]? = some (some ts) ↔ l[j]? = some ts) :
    cells = l.map some ++ List.replicate (cells.length - l.length) none := by
  apply List.ext_getElem?
  intro j
  by_cases hj : j < cells.length
  · by_cases hjl : j < l.length
    · rw [List.getElem?_append_left (by simpa using hjl), List.getElem?_map, List.getElem?_eq_getElem hjl]
      exact (h j hj _).mpr (List.getElem?_eq_getElem hjl)
    · rw [List.getElem?_append_right (by simpa using hjl), List.length_map, List.getElem?_replicate, if_pos (by omega)]
      rw [List.getElem?_eq_getElem hj]
      cases hc : cells[j] with
      | none => rfl
      | some ts =>
        have := (h j hj ts).mp (by rw [List.getElem?_eq_getElem hj, hc])
        rw [List.getElem?_eq_none (by omega)] at this
        cases this
  · rw [List.getElem?_eq_none (by omega), List.getElem?_eq_none (by simp; omega)]

end

/-- The table of paths that share nothing. -/
theorem Apart.table (env : Env) (hts : TopoSpec env.topo) {ws : List Witness} (hv : Valid ws) (hs : ∀ w ∈ ws, w.sigil ≠ [])
    {o : Opts} (ho : ExactMatching o) {g : VGraph} {ps : List WPath} {rk : Ranking} {rkf : VId → Nat} {ord : List VId} {m : Nat}
    (h : collateRanked env ws o = .ok (indexed 0 ws, g, rk)) (C : Collated env.cc (indexed 0 ws) o.segmentation g ps rk rkf ord m)
    (ha : Apart ps) :
    (∀ p ∈ ps, p.segs.length ≤ (mkTable (indexed 0 ws) g rk).columns.length) ∧
    (∃ p ∈ ps, p.segs.length = (mkTable (indexed 0 ws) g rk).columns.length) ∧
    (∀ c ∈ (mkTable (indexed 0 ws) g rk).columns, c.variant = true ↔ ws.length ≠ 1) ∧
    ∀ (k : Nat) (row : Row), (mkTable (indexed 0 ws) g rk).rows[k]? = some row → ∃ p w, ps[k]? = some p ∧
      (indexed 0 ws)[k]? = some w ∧ p.text = w.tokens ∧ row.header = w.sigil ∧
      row.cells = (p.segs.map Prod.snd).map some ++
        List.replicate ((mkTable (indexed 0 ws) g rk).columns.length - p.segs.length) none := by
  have hne : indexed 0 ws ≠ [] := by
    intro h0
    have := congrArg List.length h0
    rw [indexed_length] at this
    exact hv.ne (List.length_eq_zero_iff.mp this)
  have hs' := indexed_sigil_ne hs
  obtain ⟨e, he, _, _, _, _, hcl, hcell⟩ := C21_of_collation env hts ws _ hv hs o ho g rk h
  rw [C.rank.byVertex C.ginv.end_mem] at he
  obtain rfl := Option.some.inj he
  obtain ⟨hle, p0, hp0, hp0e⟩ := ha.end C hne
  have hcount : ∀ p ∈ ps, p.segs.length ≤ (mkTable (indexed 0 ws) g rk).columns.length := by
    intro p hp
    have := hle p hp
    omega
  have hcellp : ∀ (j : Nat) (c : Column), (mkTable (indexed 0 ws) g rk).columns[j]? = some c → ∀ p ∈ ps, ∀ ts,
      dget c.tokens p.sigil = some ts ↔ (p.segs.map Prod.snd)[j]? = some ts := by
    intro j c hc p hp ts
    rw [hcell j c hc]
    constructor
    · rintro ⟨v, hvm, hr, hca⟩
      rw [C.rank.byVertex hvm] at hr
      obtain ⟨q, hq, hqs, hqm⟩ := (C.carries hs').mp hca
      obtain rfl := sigil_unique C.ginv hq hp hqs
      obtain ⟨i, hi⟩ := List.getElem?_of_mem hqm
      have := ha.rank C hne hp i v (by unfold WPath.inner; rw [List.getElem?_map, hi]; rfl)
      have hr' := Option.some.inj hr
      obtain rfl : i = j := by omega
      rw [List.getElem?_map, hi]; rfl
    · intro hj
      rw [List.getElem?_map] at hj
      obtain ⟨⟨v, ts'⟩, hi, rfl⟩ := Option.map_eq_some_iff.mp hj
      have hm := List.mem_of_getElem? hi
      refine ⟨v, (C.ginv.segs_in p hp _ hm).1, ?_, (C.carries hs').mpr ⟨p, hp, rfl, hm⟩⟩
      rw [C.rank.byVertex (C.ginv.segs_in p hp _ hm).1,
        ha.rank C hne hp j v (by unfold WPath.inner; rw [List.getElem?_map, hi]; rfl)]
  refine ⟨hcount, ⟨p0, hp0, by omega⟩, ?_, ?_⟩
  · intro c hc
    obtain ⟨j, hj⟩ := List.getElem?_of_mem hc
    have h27 := C27_variant_iff env hts ws _ hv hs o ho g rk h j c hj
    have hlen : ps.length = ws.length := by rw [C.length, indexed_length]
    have conv : c.variant = true ↔ ¬ c.variant = false := by cases c.variant <;> simp
    rw [conv, h27]
    apply not_congr
    constructor
    · rintro ⟨⟨v, hvu⟩, hall⟩
      -- two witnesses would share the vertex
      have hon : ∀ p ∈ ps, v ∈ p.inner := by
        intro p hp
        obtain ⟨k, w, hw, hwe⟩ := C.sigil_mem hp
        obtain ⟨w0, hw0, hsig, _⟩ := indexed_strs ws hw
        obtain ⟨ts, hts'⟩ := hall w0 (List.mem_of_getElem? hw0)
        rw [← hsig, hwe] at hts'
        obtain ⟨u, hum, hur, huc⟩ := (hcell j c hj p.sigil ts).mp hts'
        obtain rfl := (hvu u hum).mp hur
        obtain ⟨q, hq, hqs, hqm⟩ := (C.carries hs').mp huc
        obtain rfl := sigil_unique C.ginv hq hp hqs
        exact List.mem_map.mpr ⟨_, hqm, rfl⟩
      match ps, hlen, hon, ha with
      | [], hlen, _, _ => exact absurd (List.length_eq_zero_iff.mp hlen.symm) hv.ne
      | [_], hlen, _, _ => simpa using hlen.symm
      | p :: q :: _, _, hon, ha =>
        exact absurd (hon q (by simp)) (ha 0 1 p q rfl rfl (by decide) v (hon p (by simp)))
    · intro h1
      rw [h1] at hlen
      obtain ⟨p, hpe⟩ := List.length_eq_one_iff.mp hlen
      have hp : p ∈ ps := by rw [hpe]; simp
      have hpp : p = p0 := by rw [hpe] at hp0; exact (List.mem_singleton.mp hp0).symm
      have hjl : j < p.segs.length := by
        have := (List.getElem?_eq_some_iff.mp hj).1
        rw [hpp]; omega
      have hat : p.inner[j]? = some p.segs[j].1 := by
        unfold WPath.inner; rw [List.getElem?_map, List.getElem?_eq_getElem hjl]; rfl
      refine ⟨⟨p.segs[j].1, ?_⟩, ?_⟩
      · intro u hum
        rw [C.rank.byVertex hum]
        constructor
        · intro hr
          have hr := Option.some.inj hr
          have hus : u ≠ startV := by
            rintro rfl
            have := (C.start_rank hne hum).mpr rfl
            omega
          have hue : u ≠ endV := by
            rintro rfl
            rw [hpp] at hjl
            omega
          obtain ⟨q, hq, hui⟩ := C.ginv.cover u hum hus hue
          obtain rfl : q = p := by rw [hpe] at hq; simpa using hq
          obtain ⟨i, hi⟩ := List.getElem?_of_mem hui
          have := ha.rank C hne hp i u hi
          obtain rfl : i = j := by omega
          rw [hi] at hat
          exact Option.some.inj hat
        · rintro rfl
          rw [ha.rank C hne hp j _ hat]
      · intro w hw
        obtain ⟨i, hi⟩ := List.getElem?_of_mem hw
        obtain ⟨hil, _⟩ := List.getElem?_eq_some_iff.mp hi
        have hil' : i < (indexed 0 ws).length := by rw [indexed_length]; exact hil
        obtain ⟨w0, hw0, hsig, _⟩ := indexed_strs ws (List.getElem?_eq_getElem hil')
        rw [hi] at hw0
        obtain rfl := Option.some.inj hw0
        obtain ⟨q, hq, hqs, _⟩ := C.at (List.getElem?_eq_getElem hil')
        obtain rfl : q = p := by
          have := List.mem_of_getElem? hq
          rw [hpe] at this
          simpa using this
        refine ⟨q.segs[j].2, ?_⟩
        rw [← hsig, ← hqs]
        refine (hcellp j c hj q hp _).mpr ?_
        rw [List.getElem?_map, List.getElem?_eq_getElem hjl]; rfl
  · intro k row hrow
    obtain ⟨w, hw, hhead, hcells⟩ := row_at hrow
    obtain ⟨p, hp, hps, hpt⟩ := C.at hw
    have hpm := List.mem_of_getElem? hp
    refine ⟨p, w, hp, hw, hpt, hhead, ?_⟩
    have hcl' : row.cells.length = (mkTable (indexed 0 ws) g rk).columns.length := by rw [hcells, List.length_map]
    have := cells_eq (cells := row.cells) (l := p.segs.map Prod.snd) (by rw [List.length_map, hcl']; exact hcount p hpm) (by
      intro j hj ts
      rw [hcl'] at hj
      rw [hcells, List.getElem?_map, List.getElem?_eq_getElem hj]
      simp only [Option.map_some, Option.some.injEq]
      rw [← hps]
      exact hcellp j _ (List.getElem?_eq_getElem hj) p hpm ts)
    rw [List.length_map, hcl'] at this
    exact this

end CollateX
