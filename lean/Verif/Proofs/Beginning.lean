import Verif.Proofs.Renaming
/-
The run of the aligner on the first witnesses is the beginning of the run on all witnesses, as long as there are no twins.
-/

namespace CollateX
open Spec

theorem alignWitnesses_append {ts : TopoFn} {pf : Option PFilter} {d : Bool} {ti : TokenIndex} (l l' : List Witness) :
    ∀ s t, alignWitnesses ts pf d ti l s = .ok t → alignWitnesses ts pf d ti (l ++ l') s = alignWitnesses ts pf d ti l' t := by
  induction l with
  | nil => intro s t h; obtain rfl := Except.ok.inj h; rfl
  | cons w l ih =>
    intro s t h
    simp only [alignWitnesses, List.cons_append] at h ⊢
    obtain ⟨s', h1, h2⟩ := bind_eq_ok.mp h
    rw [h1, bind_ok]
    exact ih s' t h2

/-- The vertex holds token `i` of witness `k`. -/
def _root_.CollateX.Spec.Holds (us : List Witness) (x : Vertex) (k i : Nat) : Prop :=
  ∃ w t ts, us[k]? = some w ∧ w.tokens[i]? = some t ∧ dget x.tokens w.sigil = some ts ∧ t ∈ ts

/-- Token `i` of witness `k` and token `j` of witness `l` are on one vertex of the graph. -/
def _root_.CollateX.Spec.SharesVertex (us : List Witness) (g : VGraph) (k i l j : Nat) : Prop :=
  ∃ v x, dget g.nodes v = some x ∧ Holds us x k i ∧ Holds us x l j

theorem holds_iff {ti : TokenIndex} (L : Layout ti) (hsg : ∀ w ∈ ti.ws, w.sigil ≠ []) {s : AlignSt} {ps : List WPath} (hs : AInv ti s ps)
    {v : VId} {x : Vertex} (hx : dget s.g.nodes v = some x) {k i : Nat} (hk : k < ps.length) :
    Holds ti.ws x k i ↔ ∃ p, ps[k]? = some p ∧ p.inner[i]? = some v := by
  have hkw : k < ti.ws.length := by have := hs.len; omega
  have hw : ti.ws[k]? = some ti.ws[k] := List.getElem?_eq_getElem hkw
  have hp : ps[k]? = some ps[k] := List.getElem?_eq_getElem hk
  obtain ⟨r1, r2⟩ := hs.reads k _ _ hw hp
  have hmem : ti.ws[k] ∈ ti.ws := List.getElem_mem hkw
  constructor
  · rintro ⟨w, t, ts, h1, h2, h3, h4⟩
    rw [hw] at h1
    obtain rfl := Option.some.inj h1
    obtain ⟨p, hp1, hp2, hp3⟩ := (hs.ginv.tok v x hx _ (hsg _ hmem) ts).mp h3
    have : p = ps[k] := hs.ginv.sig_nd |> fun nd => by
      have h5 : p.sigil = ps[k].sigil := by rw [hp2, r1]
      exact List.inj_on_of_nodup_map nd hp1 (List.getElem_mem hk) h5
    subst this
    obtain ⟨j, hj⟩ := List.getElem?_of_mem hp3
    have h6 : (ps[k].segs.map Prod.snd)[j]? = some ts := by rw [List.getElem?_map, hj]; rfl
    rw [r2, List.getElem?_map] at h6
    obtain ⟨t', ht', rfl⟩ := Option.map_eq_some_iff.mp h6
    have h7 : t = t' := by simpa using h4
    subst h7
    obtain ⟨_, hij⟩ := L.place hw hw h2 ht'
    subst hij
    exact ⟨_, hp, by unfold WPath.inner; rw [List.getElem?_map, hj]; rfl⟩
  · rintro ⟨p, h1, h2⟩
    rw [hp] at h1
    obtain rfl := Option.some.inj h1
    unfold WPath.inner at h2
    rw [List.getElem?_map] at h2
    obtain ⟨⟨v', ts⟩, h3, rfl⟩ := Option.map_eq_some_iff.mp h2
    have h6 : (ps[k].segs.map Prod.snd)[i]? = some ts := by rw [List.getElem?_map, h3]; rfl
    rw [r2, List.getElem?_map] at h6
    obtain ⟨t', ht', rfl⟩ := Option.map_eq_some_iff.mp h6
    exact ⟨_, t', [t'], hw, ht', (hs.ginv.tok _ x hx _ (hsg _ hmem) _).mpr ⟨_, List.getElem_mem hk, r1, List.mem_of_getElem? h3⟩, by simp⟩

theorem sharesVertex_iff {ti : TokenIndex} (L : Layout ti) (hsg : ∀ w ∈ ti.ws, w.sigil ≠ []) {s : AlignSt} {ps : List WPath}
    (hs : AInv ti s ps) {k i l j : Nat} (hk : k < ps.length) (hl : l < ps.length) :
    SharesVertex ti.ws s.g k i l j ↔ ∃ (v : VId) (p q : WPath), ps[k]? = some p ∧ p.inner[i]? = some v ∧ ps[l]? = some q ∧ q.inner[j]? = some v := by
  constructor
  · rintro ⟨v, x, hx, h1, h2⟩
    obtain ⟨p, h3, h4⟩ := (holds_iff L hsg hs hx hk).mp h1
    obtain ⟨q, h5, h6⟩ := (holds_iff L hsg hs hx hl).mp h2
    exact ⟨v, p, q, h3, h4, h5, h6⟩
  · rintro ⟨v, p, q, h1, h2, h3, h4⟩
    have hv : v ∈ s.g.vertices := by
      obtain ⟨a, ha, rfl⟩ := List.mem_map.mp (List.mem_of_getElem? h2)
      exact (hs.ginv.segs_in p (List.mem_of_getElem? h1) a ha).1
    obtain ⟨x, hx⟩ := exists_dget_of_mem_keys hv
    exact ⟨v, x, hx, (holds_iff L hsg hs hx hk).mpr ⟨p, h1, h2⟩, (holds_iff L hsg hs hx hl).mpr ⟨q, h3, h4⟩⟩

theorem sharesVertex_congr {ti ti' : TokenIndex} (L : Layout ti) (L' : Layout ti') (hsg : ∀ w ∈ ti.ws, w.sigil ≠ [])
    (hsg' : ∀ w ∈ ti'.ws, w.sigil ≠ []) {s s' : AlignSt} {ps ps' : List WPath} (hs : AInv ti s ps) (hs' : AInv ti' s' ps')
    (hp : ps'.map WPath.inner <+: ps.map WPath.inner) {k i l j : Nat} (hk : k < ps'.length) (hl : l < ps'.length) :
    SharesVertex ti.ws s.g k i l j ↔ SharesVertex ti'.ws s'.g k i l j := by
  have hlen : ps'.length ≤ ps.length := by simpa using hp.length_le
  rw [sharesVertex_iff L hsg hs (by omega) (by omega), sharesVertex_iff L' hsg' hs' hk hl]
  have key : ∀ m, m < ps'.length → (ps[m]?).map WPath.inner = (ps'[m]?).map WPath.inner := by
    intro m hm
    obtain ⟨r, hr⟩ := hp
    have : (ps'.map WPath.inner ++ r)[m]? = (ps.map WPath.inner)[m]? := by rw [hr]
    rw [List.getElem?_append_left (by simpa using hm), List.getElem?_map, List.getElem?_map] at this
    exact this.symm
  have e1 := key k hk
  have e2 := key l hl
  rw [List.getElem?_eq_getElem (show k < ps.length by omega), List.getElem?_eq_getElem hk] at e1 ⊢
  rw [List.getElem?_eq_getElem (show l < ps.length by omega), List.getElem?_eq_getElem hl] at e2 ⊢
  simp only [Option.map_some, Option.some.injEq] at e1 e2 ⊢
  constructor
  · rintro ⟨v, p, q, rfl, h2, rfl, h4⟩
    exact ⟨v, _, _, rfl, by rw [← e1]; exact h2, rfl, by rw [← e2]; exact h4⟩
  · rintro ⟨v, p, q, rfl, h2, rfl, h4⟩
    exact ⟨v, _, _, rfl, by rw [e1]; exact h2, rfl, by rw [e2]; exact h4⟩

theorem collateRanked_prefix {env : Env} {ws : List Witness} (hts : TopoSpec env.topo) (hv : Valid ws) (hsg : ∀ w ∈ ws, w.sigil ≠ [])
    {o : Opts} (ho : ExactMatching o) (hf : o.pfilter = none) {n : Nat} (hn0 : 0 < n) (hn : n ≤ ws.length)
    (htw : ∀ m, 2 ≤ m → m < n → ∀ us g rk, collateRanked env (ws.take m) { o with segmentation := false } = .ok (us, g, rk) → TwinFree g rk) :
    ∃ us g rk us' g' rk', collateRanked env ws { o with segmentation := false } = .ok (us, g, rk) ∧
      collateRanked env (ws.take n) { o with segmentation := false } = .ok (us', g', rk') ∧
      ∀ k i l j, k < n → l < n → (SharesVertex us g k i l j ↔ SharesVertex us' g' k i l j) := by
  have hv' := hv.take hn0
  have hsg' : ∀ w ∈ ws.take n, w.sigil ≠ [] := fun w hw => hsg w (List.mem_of_mem_take hw)
  obtain ⟨ti, hti, hws, L, B⟩ := hv.tokenIndex
  obtain ⟨ti', hti', hws', L', B'⟩ := hv'.tokenIndex
  obtain ⟨w, rest, hw⟩ := List.exists_cons_of_ne_nil L.ne
  obtain ⟨w', rest', hw'⟩ := List.exists_cons_of_ne_nil L'.ne
  obtain ⟨s, h1, _⟩ := firstWitness_ok L (w := w) (by rw [hw]; rfl)
  obtain ⟨s', h1', _⟩ := firstWitness_ok L' (w := w') (by rw [hw']; rfl)
  have e1 : rest.length + 1 = ws.length := by
    have := congrArg List.length hw
    rw [hws, indexed_length] at this
    simpa using this.symm
  have e2 : rest'.length + 1 = n := by
    have := congrArg List.length hw'
    rw [hws', indexed_length, List.length_take] at this
    simp at this
    omega
  have ha := along_of_twinFree hts hv hsg ho hf htw hws L B hw h1 (n - 1) (by omega) (by omega)
  have hlt : (rest.take (n - 1)).length = n - 1 := by rw [List.length_take]; omega
  obtain ⟨t, t', qs, qs', c1, c2, c3, c4, c5, c6⟩ := runs_of_noTwins (ts := env.topo) (n := n) hts L L' B B'
    (by rw [hws, hws']; exact (shape_take ws n hn).indexed) (by rw [hws, hws']; exact (sameEqualities_take ws n).indexed)
    (fun a b hab => by rw [hws, hws'] at hab; exact sigRel_ne hsg hsg' hab) (rest := rest.take (n - 1)) (rest' := rest') (by omega) (by omega)
    (by rw [hw]; exact List.prefix_iff_eq_take.mpr (by simp [hlt])) (by rw [hw']; exact List.prefix_refl _) h1 h1' ha
  have hkeep : StepKeeps env.topo none ti (fun _ ps => qs <+: ps) := by
    intro s s' ps w P rkf o m r cube cells al _ _ _ _ _ hq
    exact hq.trans (List.prefix_append _ _)
  obtain ⟨u, ps, d1, d2, d3, d4⟩ := alignWitnesses_inv hts none L B hkeep (rest.drop (n - 1)) t qs c3
    (by intro h; rw [h] at c5; simp at c5; omega)
    (by rw [c5, hw]; obtain ⟨m, rfl⟩ : ∃ m, n = m + 1 := ⟨n - 1, by omega⟩; simp) (List.prefix_refl _)
  have hrun : alignWitnesses env.topo none false ti rest s = .ok u := by
    have := alignWitnesses_append (rest.take (n - 1)) (rest.drop (n - 1)) _ _ c1
    rw [List.take_append_drop] at this
    rw [this, d1]
  obtain ⟨_, _, _, rk, hrk, _⟩ := rankingOf_ok hts d2.ginv.wf d2.ginv.near
  obtain ⟨_, _, _, rk', hrk', _⟩ := rankingOf_ok hts c4.ginv.wf c4.ginv.near
  refine ⟨_, _, _, _, _, _, collateRanked_plain (env := env) ho (by rw [hf]; exact collateGraph_run hti hw h1 hrun) hrk,
    collateRanked_plain (env := env) ho (by rw [hf]; exact collateGraph_run hti' hw' h1' c2) hrk', ?_⟩
  intro k i l j hk hl
  have hq' : qs'.length = n := by rw [← c6.len, c5]
  refine sharesVertex_congr L L' (by rw [hws]; exact indexed_sigil_ne hsg) (by rw [hws']; exact indexed_sigil_ne hsg') d2 c4 ?_
    (by omega) (by omega)
  rw [← c6.inner]
  obtain ⟨r, hr⟩ := d4
  exact ⟨r.map WPath.inner, by rw [← hr, List.map_append]⟩

end CollateX
