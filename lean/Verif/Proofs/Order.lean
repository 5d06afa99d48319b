import Verif.Proofs.Table
/-
Two functions that both sort topologically lead to the same collation.
-/

namespace CollateX
open Spec

/-- Two rankings give every vertex the same rank. -/
def SameRanks (r r' : Ranking) : Prop := ∀ v, dget r.byVertex v = dget r'.byVertex v

theorem dgetE_congr {K V : Type} [DecidableEq K] {d d' : Dict K V} {k : K} (h : dget d k = dget d' k) : dgetE d k = dgetE d' k := by
  unfold dgetE; rw [h]

theorem cubeOffsets_congr {r r' : Ranking} (h : SameRanks r r') (pf : Option PFilter) (arr : List Token) (va : List (Option VId))
    (ws gs is : Nat) : ∀ (k i : Nat) (m : Cube), cubeOffsets pf arr va r ws gs is k i m = cubeOffsets pf arr va r' ws gs is k i m
  | 0, _, _ => rfl
  | k + 1, i, m => by
    unfold cubeOffsets
    refine congrArg (fun f => lgetE va (gs + i) >>= f) (funext fun ov => ?_)
    cases ov with
    | none => rfl
    | some v =>
      simp only
      rw [dgetE_congr (h v)]
      refine congrArg (fun f => dgetE r'.byVertex v >>= f) (funext fun x => ?_)
      refine congrArg (fun f => lgetE arr (is + i) >>= f) (funext fun t => ?_)
      refine congrArg (fun f => filterMatch pf arr gs t >>= f) (funext fun ok => ?_)
      exact cubeOffsets_congr h pf arr va ws gs is k (i + 1) _

theorem cubeGraphInsts_congr {r r' : Ranking} (h : SameRanks r r') (pf : Option PFilter) (arr : List Token)
    (va : List (Option VId)) (ws is len : Nat) : ∀ (l : List Nat) (m : Cube),
    cubeGraphInsts pf arr va r ws is len l m = cubeGraphInsts pf arr va r' ws is len l m
  | [], _ => rfl
  | gs :: l, m => by
    unfold cubeGraphInsts
    rw [cubeOffsets_congr h]
    exact congrArg (fun f => cubeOffsets pf arr va r' ws gs is len 0 m >>= f)
      (funext fun m' => cubeGraphInsts_congr h pf arr va ws is len l m')

theorem cubeInsts_congr {r r' : Ranking} (h : SameRanks r r') (pf : Option PFilter) (ti : TokenIndex) (va : List (Option VId))
    (ws : Nat) : ∀ (l : List Inst) (m : Cube), cubeInsts pf ti va r ws l m = cubeInsts pf ti va r' ws l m
  | [], _ => rfl
  | inst :: l, m => by
    unfold cubeInsts
    refine congrArg (fun f => inst.block.instances ti.SA >>= f) (funext fun all => ?_)
    rw [cubeGraphInsts_congr h]
    exact congrArg (fun f => _ >>= f) (funext fun m' => cubeInsts_congr h pf ti va ws l m')

theorem mkCube_congr {r r' : Ranking} (h : SameRanks r r') (pf : Option PFilter) (ti : TokenIndex) (w : Witness)
    (va : List (Option VId)) : mkCube pf ti w va r = mkCube pf ti w va r' := by
  unfold mkCube
  exact congrArg (fun f => ti.rangeOf w.sigil >>= f) (funext fun x => cubeInsts_congr h pf ti va x.1 _ [])

theorem rankCount_congr {r r' : Ranking} (h : SameRanks r r') (g : VGraph) : rankCount g r = rankCount g r' := by
  unfold rankCount
  rw [List.map_congr_left (fun v _ => h v)]

theorem dget_map_not_mem (f : VId → Nat) (l : List VId) (v : VId) (h : v ∉ l) : dget (l.map (fun v => (v, f v))) v = none := by
  rw [dget_eq_none_iff]
  simpa using h

/-- The ranks do not depend on the topological order. -/
theorem rankingOf_same {ts ts' : TopoFn} (hts : TopoSpec ts) (hts' : TopoSpec ts') {g : VGraph} (wf : WF g) (hn : g.near = []) :
    ∃ r r', rankingOf ts g = .ok r ∧ rankingOf ts' g = .ok r' ∧ SameRanks r r' := by
  obtain ⟨rk, o, m, r, h1, R⟩ := rankingOf_ok hts wf hn
  obtain ⟨rk', o', m', r', h1', R'⟩ := rankingOf_ok hts' wf hn
  refine ⟨r, r', h1, h1', ?_⟩
  intro v
  by_cases hv : v ∈ g.vertices
  · rw [R.byVertex hv, R'.byVertex hv, R.isRank.unique wf R'.isRank v hv]
  · rw [R.st.bv, R'.st.bv, dget_map_not_mem _ _ _ (fun h => hv (R.topo.perm.mem_iff.mp h)),
      dget_map_not_mem _ _ _ (fun h => hv (R'.topo.perm.mem_iff.mp h))]

theorem alignStep_same {ts ts' : TopoFn} (hts : TopoSpec ts) (hts' : TopoSpec ts') (pf : Option PFilter) (d : Bool)
    (ti : TokenIndex) (s : AlignSt) (w : Witness) (wf : WF s.g) (hn : s.g.near = []) :
    alignStep ts pf d ti s w = alignStep ts' pf d ti s w := by
  obtain ⟨r, r', h1, h2, h3⟩ := rankingOf_same hts hts' wf hn
  unfold alignStep
  rw [h1, h2]
  simp only [bind_ok]
  rw [mkCube_congr h3, rankCount_congr h3]

theorem alignWitnesses_same {ts ts' : TopoFn} (hts : TopoSpec ts) (hts' : TopoSpec ts') (pf : Option PFilter) {ti : TokenIndex}
    (L : Layout ti) (B : BlocksOK ti) : ∀ (rest : List Witness) (s : AlignSt) (ps : List WPath), AInv ti s ps → ps ≠ [] →
    ti.ws.drop ps.length = rest → alignWitnesses ts pf false ti rest s = alignWitnesses ts' pf false ti rest s
  | [], _, _, _, _, _ => rfl
  | w :: rest, s, ps, hs, hne, hd => by
    have hw : ti.ws[ps.length]? = some w := by
      have : (ti.ws.drop ps.length)[0]? = some w := by rw [hd]; rfl
      simpa [List.getElem?_drop] using this
    obtain ⟨s', P, h1, h2⟩ := alignStep_ok hts pf L B hs hne hw
    have h1' : alignStep ts' pf false ti s w = .ok s' := by
      rw [← h1]; exact (alignStep_same hts hts' pf false ti s w hs.ginv.wf hs.ginv.near).symm
    simp only [alignWitnesses, h1, h1', bind_ok]
    exact alignWitnesses_same hts hts' pf L B rest s' (ps ++ [P]) h2 (by simp) (by
      have : ti.ws.drop (ps.length + 1) = rest := by
        rw [← List.drop_drop, hd]; rfl
      simpa using this)

theorem collateGraph_same {ts ts' : TopoFn} (hts : TopoSpec ts) (hts' : TopoSpec ts') (pf : Option PFilter) {ws : Collation}
    (hv : Valid ws) : collateGraph ts pf false ws = collateGraph ts' pf false ws := by
  obtain ⟨ti, hti, _, L, B⟩ := hv.tokenIndex
  obtain ⟨w, rest, hws⟩ := List.exists_cons_of_ne_nil L.ne
  have hw0 : ti.ws[0]? = some w := by rw [hws]; rfl
  obtain ⟨s1, h1, h2⟩ := firstWitness_ok L hw0
  unfold collateGraph
  simp only [hti, bind_ok, hws, h1]
  rw [alignWitnesses_same hts hts' pf L B rest s1 _ h2 (by simp) (by rw [hws]; rfl)]

/-- The graph does not depend on the topological order, and neither do the ranks. -/
theorem collateRanked_same {env env' : Env} (hts : TopoSpec env.topo) (hts' : TopoSpec env'.topo) (hcc : env'.cc = env.cc)
    {ws : List Witness} (hv : Valid ws) (o : Opts) (ho : ExactMatching o) :
    ∃ g ps rk rkf ord m rk' rkf' ord' m', collateRanked env ws o = .ok (indexed 0 ws, g, rk) ∧
      collateRanked env' ws o = .ok (indexed 0 ws, g, rk') ∧ Collated env.cc (indexed 0 ws) o.segmentation g ps rk rkf ord m ∧
      Collated env.cc (indexed 0 ws) o.segmentation g ps rk' rkf' ord' m' := by
  obtain ⟨g, ps, rk, rkf, ord, m, h1, C⟩ := collateRanked_ok env hts hv o ho.astar ho.detect ho.near
  obtain ⟨rkf', ord', m', rk', h4, h5⟩ := rankingOf_ok hts' C.ginv.wf C.ginv.near
  refine ⟨g, ps, rk, rkf, ord, m, rk', rkf', ord', m', h1, ?_, C, ⟨C.ginv, C.readings, C.uniform, C.labelled, C.single, C.maximal, h5⟩⟩
  have ha := ho.astar
  have hd := ho.detect
  have hn := ho.near
  unfold collateRanked at h1 ⊢
  rw [if_neg (by simp [ha])] at h1 ⊢
  rw [hd] at h1 ⊢
  rw [hn] at h1 ⊢
  rw [← collateGraph_same hts hts' o.pfilter hv, hcc]
  obtain ⟨ti, hti, _, L, B⟩ := hv.tokenIndex
  obtain ⟨s, ps0, k1, k2, k3⟩ := collateGraph_ok hts o.pfilter hti L B
  rw [k1] at h1 ⊢
  obtain ⟨r0, r0', q1, q2, _⟩ := rankingOf_same hts hts' k2.ginv.wf k2.ginv.near
  simp only [bind_ok, q1, q2, Bool.false_eq_true, if_false] at h1 ⊢
  cases hseg : o.segmentation with
  | false =>
    rw [hseg] at h1
    simp only [Bool.false_eq_true, if_false] at h1 ⊢
    have := Except.ok.inj h1
    injection this with e1 e2
    injection e2 with e2 e3
    rw [← e2] at h4
    rw [q2] at h4
    rw [e1, e2, Except.ok.inj h4]
  | true =>
    rw [hseg] at h1
    simp only [if_true] at h1 ⊢
    obtain ⟨g', j1, h1⟩ := bind_eq_ok.mp h1
    obtain ⟨rk0, j2, h1⟩ := bind_eq_ok.mp h1
    have := Except.ok.inj h1
    injection this with e1 e2
    injection e2 with e2 e3
    rw [j1]
    simp only [bind_ok]
    rw [e2, h4]
    simp only [bind_ok]
    rw [e1]

/-! ### The table -/

section
variable {cc : CharClass} {ws : List Witness} {seg : Bool} {g : VGraph} {ps : List WPath} {rk rk' : Ranking} {rkf rkf' : VId → Nat}
  {ord ord' : List VId} {m m' : Nat}

theorem Collated.ranks_eq (C : Collated cc ws seg g ps rk rkf ord m) (C' : Collated cc ws seg g ps rk' rkf' ord' m') :
    ∀ v ∈ g.vertices, rkf v = rkf' v := C.rank.isRank.unique C.ginv.wf C'.rank.isRank

theorem Collated.m_le (C : Collated cc ws seg g ps rk rkf ord m) (C' : Collated cc ws seg g ps rk' rkf' ord' m') : m ≤ m' := by
  by_contra hgt
  obtain ⟨v, hv, he⟩ := C.rank.st.ne m' (by omega)
  have hv' := C.rank.topo.perm.mem_iff.mp hv
  have := C'.rank.lt_m hv'
  rw [← C.ranks_eq C' v hv'] at this
  omega

theorem Collated.m_eq (C : Collated cc ws seg g ps rk rkf ord m) (C' : Collated cc ws seg g ps rk' rkf' ord' m') : m = m' :=
  Nat.le_antisymm (C.m_le C') (C'.m_le C)

/-- Columns of two tables of a graph by ranks that are the same on its vertices. -/
theorem ByRank.colAt_same {f f' : VId → Nat} {L L' : Nat → List VId} (R : ByRank g f m L rk) (R' : ByRank g f' m L' rk')
    (hff : ∀ v ∈ g.vertices, f v = f' v) (G : GInv g ps) (hinc : ∀ p ∈ ps, p.inner.Pairwise (fun u v => f u < f v))
    (hat : ∀ w ∈ ws, ∃ p ∈ ps, p.sigil = w.sigil) (hs : ∀ w ∈ ws, w.sigil ≠ []) {n k : Nat} (hk : k < m) {c : Column}
    (hc : colAt g n L k = some c) :
    ∃ c', colAt g n L' k = some c' ∧ c.variant = c'.variant ∧ ∀ w ∈ ws, dget c.tokens w.sigil = dget c'.tokens w.sigil := by
  have hp : (L k).Perm (L' k) := by
    rw [List.perm_ext_iff_of_nodup (R.nd k hk) (R'.nd k hk)]
    intro v
    rw [R.mem k hk, R'.mem k hk]
    constructor
    · rintro ⟨h1, h2⟩
      rw [hff v h1] at h2
      exact ⟨h1, h2⟩
    · rintro ⟨h1, h2⟩
      rw [← hff v h1] at h2
      exact ⟨h1, h2⟩
  obtain ⟨v, hv, hi⟩ := colAt_isSome.mp ⟨c, hc⟩
  obtain ⟨c', hc'⟩ := (colAt_isSome (g := g) (n := n) (L := L') (k := k)).mpr ⟨v, hp.mem_iff.mp hv, hi⟩
  refine ⟨c', hc', ?_, ?_⟩
  · have hkeys : c.tokens.length = c'.tokens.length := by
      have e : (c.tokens.map Prod.fst).Perm (c'.tokens.map Prod.fst) := by
        rw [List.perm_ext_iff_of_nodup (colAt_nodup hc) (colAt_nodup hc')]
        intro σ
        rw [colAt_mem hc, colAt_mem hc']
        constructor
        · rintro ⟨v, h1, h2⟩; exact ⟨v, hp.mem_iff.mp h1, h2⟩
        · rintro ⟨v, h1, h2⟩; exact ⟨v, hp.mem_iff.mpr h1, h2⟩
      simpa using e.length_eq
    have hlen := hp.length_eq
    unfold colAt at hc hc'
    rw [columnLoop_eq] at hc hc'
    split at hc
    · cases hc
    · split at hc'
      · cases hc'
      · injection hc with hc
        injection hc' with hc'
        rw [← hc, ← hc'] at hkeys
        simp only at hkeys
        rw [← hc, ← hc']
        simp only [hkeys, hlen]
  · intro w hw
    obtain ⟨p, hpm, hpw⟩ := hat w hw
    have hsig : p.sigil ≠ [] := by rw [hpw]; exact hs w hw
    have hinc' : p.inner.Pairwise (fun u v => f' u < f' v) := by
      refine (hinc p hpm).imp_of_mem ?_
      intro a b ha hb hab
      obtain ⟨s, hs, rfl⟩ := List.mem_map.mp ha
      obtain ⟨t, ht, rfl⟩ := List.mem_map.mp hb
      rw [← hff _ (G.segs_in p hpm s hs).1, ← hff _ (G.segs_in p hpm t ht).1]
      exact hab
    have f1 := R.cell G hpm hsig (hinc p hpm) n hk
    have f2 := R'.cell G hpm hsig hinc' n hk
    rw [hc, Option.bind_some] at f1
    rw [hc', Option.bind_some] at f2
    rw [← hpw]
    apply Option.ext
    intro ts
    rw [f1, f2]
    constructor
    · rintro ⟨q, h1, h2, h3⟩
      exact ⟨q, h1, by rw [← hff _ (G.segs_in p hpm q h1).1]; exact h2, h3⟩
    · rintro ⟨q, h1, h2, h3⟩
      exact ⟨q, h1, by rw [hff _ (G.segs_in p hpm q h1).1]; exact h2, h3⟩

theorem filterMap_map_congr {α β γ : Type} {f f' : α → Option β} {h h' : β → γ} : ∀ (l : List α),
    (∀ a ∈ l, ∀ b, f a = some b → ∃ b', f' a = some b' ∧ h b = h' b') → (∀ a ∈ l, ∀ b', f' a = some b' → ∃ b, f a = some b) →
    (l.filterMap f).map h = (l.filterMap f').map h'
  | [], _, _ => rfl
  | a :: l, h1, h2 => by
    have ih := filterMap_map_congr (h := h) (h' := h') l (fun a ha => h1 a (by simp [ha])) (fun a ha => h2 a (by simp [ha]))
    cases hf : f a with
    | none =>
      have hf' : f' a = none := by
        cases e : f' a with
        | none => rfl
        | some b' =>
          obtain ⟨b, hb⟩ := h2 a (by simp) b' e
          rw [hf] at hb; cases hb
      rw [List.filterMap_cons_none hf, List.filterMap_cons_none hf', ih]
    | some b =>
      obtain ⟨b', hb', he⟩ := h1 a (by simp) b hf
      rw [List.filterMap_cons_some hf, List.filterMap_cons_some hb', List.map_cons, List.map_cons, ih, he]

/-- Anything that depends only on the variant flag and the cells of the witnesses is the same for both tables. -/
theorem ByRank.columns_same {f f' : VId → Nat} {L L' : Nat → List VId} (R : ByRank g f m L rk) (R' : ByRank g f' m L' rk')
    (hff : ∀ v ∈ g.vertices, f v = f' v) (G : GInv g ps) (hinc : ∀ p ∈ ps, p.inner.Pairwise (fun u v => f u < f v))
    (hat : ∀ w ∈ ws, ∃ p ∈ ps, p.sigil = w.sigil) (hs : ∀ w ∈ ws, w.sigil ≠ []) {γ : Type} {h : Column → γ}
    (hh : ∀ c c' : Column, c.variant = c'.variant → (∀ w ∈ ws, dget c.tokens w.sigil = dget c'.tokens w.sigil) → h c = h c') :
    (mkTable ws g rk).columns.map h = (mkTable ws g rk').columns.map h := by
  have hinc' : ∀ p ∈ ps, p.inner.Pairwise (fun u v => f' u < f' v) := by
    intro p hpm
    refine (hinc p hpm).imp_of_mem ?_
    intro a b ha hb hab
    obtain ⟨s, hs, rfl⟩ := List.mem_map.mp ha
    obtain ⟨t, ht, rfl⟩ := List.mem_map.mp hb
    rw [← hff _ (G.segs_in p hpm s hs).1, ← hff _ (G.segs_in p hpm t ht).1]
    exact hab
  rw [R.columns, R'.columns]
  apply filterMap_map_congr
  · intro k hk c hc
    obtain ⟨c', h1, h2, h3⟩ := R.colAt_same R' hff G hinc hat hs (List.mem_range.mp hk) hc
    exact ⟨c', h1, hh c c' h2 h3⟩
  · intro k hk c hc
    obtain ⟨c', h1, _⟩ := R'.colAt_same R (fun v hv => (hff v hv).symm) G hinc' hat hs (List.mem_range.mp hk) hc
    exact ⟨c', h1⟩

theorem Collated.columns_same (C : Collated cc ws seg g ps rk rkf ord m) (C' : Collated cc ws seg g ps rk' rkf' ord' m')
    (hs : ∀ w ∈ ws, w.sigil ≠ []) {γ : Type} {h : Column → γ}
    (hh : ∀ c c' : Column, c.variant = c'.variant → (∀ w ∈ ws, dget c.tokens w.sigil = dget c'.tokens w.sigil) → h c = h c') :
    (mkTable ws g rk).columns.map h = (mkTable ws g rk').columns.map h := by
  obtain rfl := C.m_eq C'
  refine C.byRank.columns_same C'.byRank (C.ranks_eq C') C.ginv (fun p hp => C.inner_increasing hp) ?_ hs hh
  intro w hw
  obtain ⟨i, hw'⟩ := List.getElem?_of_mem hw
  obtain ⟨p, hp', hpw, _⟩ := C.at hw'
  exact ⟨p, List.mem_of_getElem? hp', hpw⟩

end

end CollateX
