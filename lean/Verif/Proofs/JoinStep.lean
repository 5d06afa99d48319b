import Verif.Proofs.Join
/-
One step of `join` keeps the graph invariant.
-/

namespace CollateX
open Spec

/-- `c` is the only successor of `v`, `v` is the only predecessor of `c`, and `c` is not the end. -/
structure Joinable (g : VGraph) (v c : VId) : Prop where
  out : ∃ e, g.outEdges v = [e] ∧ e.tgt = c
  ne_end : c ≠ endV
  inn : (g.inEdges c).length = 1

def contractPath (v c : VId) (p : WPath) : WPath := ⟨p.sigil, contract v c p.segs⟩

section
variable {g : VGraph} {ps : List WPath} {v c : VId}

theorem Joinable.edge (J : Joinable g v c) : (v, c) ∈ g.pairs := by
  obtain ⟨e, h1, h2⟩ := J.out
  have : e ∈ g.outEdges v := by rw [h1]; simp
  obtain ⟨h3, h4⟩ := mem_outEdges.mp this
  rw [← h4, ← h2]
  exact mem_pairs_of_edge h3

theorem Joinable.succ (J : Joinable g v c) {b : VId} (h : (v, b) ∈ g.pairs) : b = c := by
  obtain ⟨e, h1, h2⟩ := J.out
  obtain ⟨l, hl⟩ := mem_pairs.mp h
  have : (⟨v, b, l⟩ : Edge) ∈ g.outEdges v := mem_outEdges.mpr ⟨hl, rfl⟩
  rw [h1, List.mem_singleton] at this
  rw [← h2, ← this]

theorem Joinable.pred (J : Joinable g v c) {a : VId} (h : (a, c) ∈ g.pairs) : a = v := by
  obtain ⟨l, hl⟩ := mem_pairs.mp h
  obtain ⟨l', hl'⟩ := mem_pairs.mp J.edge
  obtain ⟨b, hb⟩ := List.length_eq_one_iff.mp J.inn
  have h1 : (⟨a, c, l⟩ : Edge) ∈ g.inEdges c := mem_inEdges.mpr ⟨hl, rfl⟩
  have h2 : (⟨v, c, l'⟩ : Edge) ∈ g.inEdges c := mem_inEdges.mpr ⟨hl', rfl⟩
  rw [hb, List.mem_singleton] at h1 h2
  have h3 := h1.trans h2.symm
  injection h3

theorem GInv.ne_of_pair (hg : GInv g ps) {a b : VId} (h : (a, b) ∈ g.pairs) : a ≠ b := by
  obtain ⟨f, hf⟩ := hg.lay
  rintro rfl
  have := hf _ h
  simp at this

theorem GInv.not_start_tgt (hg : GInv g ps) {a : VId} : (a, startV) ∉ g.pairs := by
  intro h
  obtain ⟨p, hp, hc⟩ := (hg.edges_iff _ _).mp h
  have hnd := hg.path_nodup hp
  unfold WPath.path at hc hnd
  rcases consec_cons.mp hc with ⟨_, h2⟩ | h2
  · exact (List.nodup_cons.mp hnd).1 (List.mem_of_mem_head? h2)
  · exact (List.nodup_cons.mp hnd).1 h2.mem_right

theorem GInv.not_end_src (hg : GInv g ps) {b : VId} : (endV, b) ∉ g.pairs := by
  intro h
  obtain ⟨p, hp, hc⟩ := (hg.edges_iff _ _).mp h
  have hnd := hg.path_nodup hp
  unfold WPath.path at hc hnd
  rw [← List.cons_append] at hc hnd
  rcases consec_append_single.mp hc with h2 | ⟨h2, _⟩
  · exact (List.nodup_append.mp hnd).2.2 _ h2.mem_left _ (by simp) rfl
  · exact (List.nodup_append.mp hnd).2.2 _ (List.mem_of_getLast? h2) _ (by simp) rfl

theorem Joinable.ne (J : Joinable g v c) (hg : GInv g ps) : v ≠ c := hg.ne_of_pair J.edge

theorem Joinable.v_ne_end (J : Joinable g v c) (hg : GInv g ps) : v ≠ endV := by
  rintro rfl; exact hg.not_end_src J.edge

theorem Joinable.c_ne_start (J : Joinable g v c) (hg : GInv g ps) : c ≠ startV := by
  rintro rfl; exact hg.not_start_tgt J.edge

/-- A path through `v` goes on to `c`; a path through `c` comes from `v`. -/
theorem Joinable.path (J : Joinable g v c) (hg : GInv g ps) (hvs : v ≠ startV) {p : WPath} (hp : p ∈ ps) :
    (v ∉ p.inner ∧ c ∉ p.inner) ∨ ∃ A B ts us, p.segs = A ++ (v, ts) :: (c, us) :: B ∧
      v ∉ A.map Prod.fst ∧ c ∉ A.map Prod.fst ∧ v ∉ B.map Prod.fst ∧ c ∉ B.map Prod.fst := by
  have hpair : ∀ {a b}, Consec p.path a b → (a, b) ∈ g.pairs := fun h => (hg.edges_iff _ _).mpr ⟨p, hp, h⟩
  have key : v ∈ p.inner → ∃ A B ts us, p.segs = A ++ (v, ts) :: (c, us) :: B := by
    intro hv
    obtain ⟨⟨v', ts⟩, hm, rfl⟩ := List.mem_map.mp hv
    obtain ⟨A, R, hR⟩ := List.append_of_mem hm
    cases R with
    | nil =>
      have : Consec p.path v' endV := by
        refine ⟨startV :: A.map Prod.fst, [], ?_⟩
        simp [WPath.path, WPath.inner, hR]
      exact absurd (J.succ (hpair this)).symm J.ne_end
    | cons r B =>
      have : Consec p.path v' r.1 := by
        refine ⟨startV :: A.map Prod.fst, B.map Prod.fst ++ [endV], ?_⟩
        simp [WPath.path, WPath.inner, hR]
      have hr := J.succ (hpair this)
      exact ⟨A, B, ts, r.2, by rw [hR, ← hr]⟩
  have key2 : c ∈ p.inner → v ∈ p.inner := by
    intro hc
    obtain ⟨⟨c', us⟩, hm, rfl⟩ := List.mem_map.mp hc
    obtain ⟨A, R, hR⟩ := List.append_of_mem hm
    rcases List.eq_nil_or_concat A with rfl | ⟨A', r, rfl⟩
    · have : Consec p.path startV c' := by
        refine ⟨[], R.map Prod.fst ++ [endV], ?_⟩
        simp [WPath.path, WPath.inner, hR]
      exact absurd (J.pred (hpair this)).symm hvs
    · have : Consec p.path r.1 c' := by
        refine ⟨startV :: A'.map Prod.fst, R.map Prod.fst ++ [endV], ?_⟩
        simp [WPath.path, WPath.inner, hR]
      have := J.pred (hpair this)
      rw [← this]
      simp [WPath.inner, hR]
  by_cases hv : v ∈ p.inner
  · right
    obtain ⟨A, B, ts, us, h⟩ := key hv
    refine ⟨A, B, ts, us, h, ?_⟩
    have hnd := hg.inner_nodup hp
    unfold WPath.inner at hnd
    rw [h, List.map_append, List.map_cons, List.map_cons] at hnd
    rw [List.nodup_append] at hnd
    obtain ⟨_, h2, h3⟩ := hnd
    simp only [List.nodup_cons, List.mem_cons, not_or] at h2
    refine ⟨fun hm => h3 v hm v (by simp) rfl, fun hm => h3 c hm c (by simp) rfl, h2.1.2, h2.2.1⟩
  · exact Or.inl ⟨hv, fun hc => hv (key2 hc)⟩

/-- The segments after contraction. -/
theorem Joinable.segs (J : Joinable g v c) (hg : GInv g ps) (hvs : v ≠ startV) {p : WPath} (hp : p ∈ ps) :
    ((v ∉ p.inner ∧ c ∉ p.inner) ∧ contract v c p.segs = p.segs) ∨
    ∃ A B ts us, p.segs = A ++ (v, ts) :: (c, us) :: B ∧ contract v c p.segs = A ++ (v, ts ++ us) :: B ∧
      v ∉ A.map Prod.fst ∧ c ∉ A.map Prod.fst ∧ v ∉ B.map Prod.fst ∧ c ∉ B.map Prod.fst := by
  rcases J.path hg hvs hp with h | ⟨A, B, ts, us, h1, h2, h3, h4, h5⟩
  · exact Or.inl ⟨h, contract_id _ _ _ h.1⟩
  · exact Or.inr ⟨A, B, ts, us, h1, by rw [h1]; exact contract_split v c ts us B A h2, h2, h3, h4, h5⟩

/-- Contraction keeps the text. -/
theorem contract_text (v c : VId) : ∀ l : List (VId × List Token), (contract v c l).flatMap Prod.snd = l.flatMap Prod.snd
  | [] => rfl
  | [q] => rfl
  | q :: r :: rest => by
    rw [contract]
    split
    · simp
    · rw [List.flatMap_cons, contract_text v c (r :: rest)]
      simp

theorem contract_ne_nil (v c : VId) {l : List (VId × List Token)} (h : l ≠ []) : contract v c l ≠ [] := by
  match l with
  | [] => exact absurd rfl h
  | [q] => simp [contract]
  | q :: r :: rest => rw [contract]; split <;> simp

/-- Membership after contraction. -/
theorem Joinable.mem_segs (J : Joinable g v c) (hg : GInv g ps) (hvs : v ≠ startV) {p : WPath} (hp : p ∈ ps)
    {u : VId} {ts : List Token} : (u, ts) ∈ contract v c p.segs ↔
      (u ≠ v ∧ u ≠ c ∧ (u, ts) ∈ p.segs) ∨ (u = v ∧ ∃ ts1 ts2, (v, ts1) ∈ p.segs ∧ (c, ts2) ∈ p.segs ∧ ts = ts1 ++ ts2) := by
  have hvc := J.ne hg
  have notin : ∀ {l : List (VId × List Token)} {w : VId} {x}, w ∉ l.map Prod.fst → (w, x) ∉ l :=
    fun h hm => h (List.mem_map.mpr ⟨_, hm, rfl⟩)
  rcases J.segs hg hvs hp with ⟨⟨h1, h2⟩, h3⟩ | ⟨A, B, t1, t2, h1, h2, h3, h4, h5, h6⟩
  · rw [h3]
    constructor
    · intro hm
      left
      refine ⟨?_, ?_, hm⟩
      · rintro rfl; exact notin h1 hm
      · rintro rfl; exact notin h2 hm
    · rintro (⟨_, _, hm⟩ | ⟨_, ts1, _, hm, _⟩)
      · exact hm
      · exact absurd hm (notin h1)
  · rw [h2, h1]
    simp only [List.mem_append, List.mem_cons, Prod.mk.injEq]
    constructor
    · rintro (hm | ⟨rfl, rfl⟩ | hm)
      · left
        refine ⟨?_, ?_, Or.inl hm⟩
        · rintro rfl; exact notin h3 hm
        · rintro rfl; exact notin h4 hm
      · right
        exact ⟨rfl, t1, t2, Or.inr (Or.inl (by simp)), Or.inr (Or.inr (Or.inl (by simp))), rfl⟩
      · left
        refine ⟨?_, ?_, Or.inr (Or.inr (Or.inr hm))⟩
        · rintro rfl; exact notin h5 hm
        · rintro rfl; exact notin h6 hm
    · rintro (⟨g1, g2, hm | ⟨hm, _⟩ | ⟨hm, _⟩ | hm⟩ | ⟨rfl, a, b, ha, hb, rfl⟩)
      · exact Or.inl hm
      · exact absurd hm g1
      · exact absurd hm g2
      · exact Or.inr (Or.inr hm)
      · right; left
        refine ⟨rfl, ?_⟩
        have ea : a = t1 := by
          rcases ha with ha | ⟨_, ha⟩ | ⟨ha, _⟩ | ha
          · exact absurd ha (notin h3)
          · exact ha
          · exact absurd ha hvc
          · exact absurd ha (notin h5)
        have eb : b = t2 := by
          rcases hb with hb | ⟨hb, _⟩ | ⟨_, hb⟩ | hb
          · exact absurd hb (notin h4)
          · exact absurd hb.symm hvc
          · exact hb
          · exact absurd hb (notin h6)
        rw [ea, eb]

theorem Joinable.mem_inner (J : Joinable g v c) (hg : GInv g ps) (hvs : v ≠ startV) {p : WPath} (hp : p ∈ ps) {u : VId} :
    u ∈ (contractPath v c p).inner ↔ u ∈ p.inner ∧ u ≠ c := by
  have hvc := J.ne hg
  unfold WPath.inner contractPath
  constructor
  · intro h
    obtain ⟨⟨u', ts⟩, hm, rfl⟩ := List.mem_map.mp h
    rcases (J.mem_segs hg hvs hp).mp hm with ⟨_, h2, h3⟩ | ⟨h1, ts1, _, h2, _⟩
    · exact ⟨List.mem_map.mpr ⟨_, h3, rfl⟩, h2⟩
    · simp only at h1 ⊢
      subst h1
      exact ⟨List.mem_map.mpr ⟨_, h2, rfl⟩, hvc⟩
  · rintro ⟨h, hne⟩
    obtain ⟨⟨u', ts⟩, hm, rfl⟩ := List.mem_map.mp h
    by_cases huv : u' = v
    · subst huv
      rcases J.path hg hvs hp with ⟨h1, _⟩ | ⟨A, B, t1, t2, h1, _⟩
      · exact absurd h h1
      · refine List.mem_map.mpr ⟨(u', t1 ++ t2), (J.mem_segs hg hvs hp).mpr (Or.inr ⟨rfl, t1, t2, ?_, ?_, rfl⟩), rfl⟩
        · rw [h1]; simp
        · rw [h1]; simp
    · exact List.mem_map.mpr ⟨(u', ts), (J.mem_segs hg hvs hp).mpr (Or.inl ⟨huv, hne, hm⟩), rfl⟩

/-- Consecutive vertices after contraction. -/
theorem Joinable.consec (J : Joinable g v c) (hg : GInv g ps) (hvs : v ≠ startV) {p : WPath} (hp : p ∈ ps) {a b : VId} :
    Consec (contractPath v c p).path a b ↔
      (Consec p.path a b ∧ a ≠ v ∧ a ≠ c) ∨ (a = v ∧ Consec p.path c b) := by
  have hvc := J.ne hg
  have hve := J.v_ne_end hg
  have hcs := J.c_ne_start hg
  have hce := J.ne_end
  rcases J.segs hg hvs hp with ⟨⟨h1, h2⟩, h3⟩ | ⟨A, B, t1, t2, h1, h2, h3, h4, h5, h6⟩
  · have hpath : (contractPath v c p).path = p.path := by simp [WPath.path, WPath.inner, contractPath, h3]
    rw [hpath]
    have hnotin : v ∉ p.path ∧ c ∉ p.path := by
      unfold WPath.path
      simp only [List.mem_cons, List.mem_append, List.not_mem_nil, or_false, not_or]
      exact ⟨⟨hvs, h1, hve⟩, hcs, h2, hce⟩
    constructor
    · intro h
      left
      refine ⟨h, ?_, ?_⟩
      · rintro rfl; exact hnotin.1 h.mem_left
      · rintro rfl; exact hnotin.2 h.mem_left
    · rintro (⟨h, _⟩ | ⟨_, h⟩)
      · exact h
      · exact absurd h.mem_left hnotin.2
  · have e1 : p.path = (startV :: A.map Prod.fst) ++ v :: c :: (B.map Prod.fst ++ [endV]) := by
      simp [WPath.path, WPath.inner, h1]
    have e2 : (contractPath v c p).path = (startV :: A.map Prod.fst) ++ v :: (B.map Prod.fst ++ [endV]) := by
      simp [WPath.path, WPath.inner, contractPath, h2]
    rw [e1, e2]
    apply consec_contract hvc
    · simp only [List.mem_cons, not_or]; exact ⟨hvs, h3⟩
    · simp only [List.mem_cons, not_or]; exact ⟨hcs, h4⟩
    · simp only [List.mem_append, List.mem_singleton, not_or]; exact ⟨h5, hve⟩
    · simp only [List.mem_append, List.mem_singleton, not_or]; exact ⟨h6, hce⟩

/-! ### The graph after the step -/

theorem mem_pairs_joined {x : Vertex} (hvc : v ≠ c) {a b : VId} :
    (a, b) ∈ (joined g c v x).pairs ↔ ((a, b) ∈ g.pairs ∧ a ≠ v ∧ a ≠ c) ∨ (a = v ∧ (c, b) ∈ g.pairs) := by
  rw [mem_pairs, mem_pairs, mem_pairs]
  simp only [joined, List.mem_append, List.mem_filter, List.mem_map, ne_eq, decide_eq_true_eq, mem_outEdges, Edge.mk.injEq]
  constructor
  · rintro ⟨l, ⟨h1, h2⟩ | ⟨e, ⟨h1, h2⟩, rfl, rfl, rfl⟩⟩
    · exact Or.inl ⟨⟨l, h1⟩, h2⟩
    · exact Or.inr ⟨rfl, e.label, by rw [← h2]; exact h1⟩
  · rintro (⟨⟨l, h1⟩, h2⟩ | ⟨rfl, l, h1⟩)
    · exact ⟨l, Or.inl ⟨h1, h2⟩⟩
    · exact ⟨l, Or.inr ⟨_, ⟨h1, rfl⟩, rfl, rfl, rfl⟩⟩

theorem mem_vertices_joined {x : Vertex} {u : VId} : u ∈ (joined g c v x).vertices ↔ u ∈ g.vertices ∧ u ≠ c := by
  unfold VGraph.vertices joined
  simp only [List.map_map, List.mem_map, List.mem_filter, Function.comp, decide_eq_true_eq, ne_eq]
  constructor
  · rintro ⟨q, ⟨h1, h2⟩, h3⟩
    have : q.1 = u := by
      by_cases h : q.1 = v
      · rw [if_pos h] at h3; exact h3
      · rw [if_neg h] at h3; exact h3
    rw [← this]
    exact ⟨⟨q, h1, rfl⟩, h2⟩
  · rintro ⟨⟨q, h1, rfl⟩, h2⟩
    refine ⟨q, ⟨h1, h2⟩, ?_⟩
    by_cases h : q.1 = v
    · rw [if_pos h]
    · rw [if_neg h]

theorem vertices_joined {x : Vertex} : (joined g c v x).vertices = g.vertices.filter (fun u => u ≠ c) := by
  unfold VGraph.vertices joined
  rw [List.map_map, List.filter_map]
  apply List.map_congr_left
  intro q _
  simp only [Function.comp]
  split <;> rfl

theorem dget_joined {x : Vertex} (hvc : v ≠ c) (hnd : g.vertices.Nodup) (hv : v ∈ g.vertices) {u : VId} (huc : u ≠ c) :
    dget (joined g c v x).nodes u = if u = v then some x else dget g.nodes u := by
  have hnd' : ((joined g c v x).nodes.map Prod.fst).Nodup := by
    have := vertices_joined (g := g) (c := c) (v := v) (x := x)
    unfold VGraph.vertices at this
    rw [this]
    exact List.Nodup.filter _ hnd
  by_cases huv : u = v
  · subst huv
    rw [if_pos rfl]
    apply dget_of_mem hnd'
    obtain ⟨q, hq, rfl⟩ := List.mem_map.mp hv
    simp only [joined]
    refine List.mem_map.mpr ⟨q, List.mem_filter.mpr ⟨hq, by simpa using hvc⟩, by simp⟩
  · rw [if_neg huv]
    cases hd : dget g.nodes u with
    | some y =>
      apply dget_of_mem hnd'
      exact List.mem_map.mpr ⟨(u, y), List.mem_filter.mpr ⟨dget_mem hd, by simpa using huc⟩, by simp [huv]⟩
    | none =>
      rw [dget_eq_none_iff] at hd ⊢
      intro hm
      have := (mem_vertices_joined (g := g) (c := c) (v := v) (x := x) (u := u)).mp hm
      exact hd this.1

/-- One step of `join`: it succeeds and keeps the invariant. -/
theorem GInv.join_step (cc : CharClass) (hg : GInv g ps) (J : Joinable g v c) (hvs : v ≠ startV)
    (hsingle : ∀ p ∈ ps, ∀ ts, (c, ts) ∈ p.segs → ∃ t, ts = [t]) :
    ∃ x, joinVertices cc g c v = .ok (g.setVertex v x) ∧ GInv (joined g c v x) (ps.map (contractPath v c)) := by
  have hvc := J.ne hg
  have hve := J.v_ne_end hg
  have hcs := J.c_ne_start hg
  have hce := J.ne_end
  obtain ⟨hvm, hcm⟩ := hg.wf.ends _ J.edge
  simp only at hvm hcm
  obtain ⟨xv, hxv⟩ := exists_dget_of_mem_keys hvm
  obtain ⟨xc, hxc⟩ := exists_dget_of_mem_keys hcm
  have hcne : ∀ s ts, (s, ts) ∈ xc.tokens → ts ≠ [] := by
    intro s ts hm
    have hd := dget_of_mem (hg.tok_nd c xc hxc) hm
    by_cases hs : s = []
    · subst hs; exact (hg.tok0 c xc hxc ts hd).1
    · obtain ⟨p, hp, _, hseg⟩ := (hg.tok c xc hxc s hs ts).mp hd
      exact (hg.segs_in p hp _ hseg).2.2.2
  obtain ⟨x, h1, h2, h3, h4⟩ := joinTokens_ok xc.tokens { xv with label := joinLabel cc xv.label xc.label }
    (hg.tok_nd v xv hxv) (hg.tok_nd c xc hxc) hcne
  refine ⟨x, ?_, ?_⟩
  · unfold joinVertices VGraph.vertexE
    simp only [dgetE_of_dget hxv, dgetE_of_dget hxc, bind_ok, h1]
  · -- passing through v or c
    have hpc : ∀ p ∈ ps, c ∈ p.inner → v ∈ p.inner := by
      intro p hp hc
      rcases J.path hg hvs hp with ⟨_, h⟩ | ⟨A, B, ts, us, h, _⟩
      · exact absurd hc h
      · simp [WPath.inner, h]
    have htokv : ∀ s, s ≠ [] → ∀ ts, dget x.tokens s = some ts ↔
        ∃ p ∈ ps, p.sigil = s ∧ ∃ ts1 ts2, (v, ts1) ∈ p.segs ∧ (c, ts2) ∈ p.segs ∧ ts = ts1 ++ ts2 := by
      intro s hs ts
      rw [h4 s]
      simp only
      constructor
      · intro hd
        cases hdc : dget xc.tokens s with
        | none =>
          rw [hdc] at hd
          simp only at hd
          obtain ⟨p, hp, hps, hseg⟩ := (hg.tok v xv hxv s hs ts).mp hd
          exfalso
          rcases J.path hg hvs hp with ⟨h, _⟩ | ⟨A, B, t1, t2, h, _⟩
          · exact h (List.mem_map.mpr ⟨_, hseg, rfl⟩)
          · have := (hg.tok c xc hxc s hs t2).mpr ⟨p, hp, hps, by rw [h]; simp⟩
            rw [hdc] at this
            cases this
        | some us =>
          obtain ⟨p, hp, hps, hseg⟩ := (hg.tok c xc hxc s hs us).mp hdc
          obtain ⟨t, rfl⟩ := hsingle p hp us hseg
          rw [hdc] at hd
          simp only [Option.some.injEq] at hd
          rcases J.path hg hvs hp with ⟨_, h⟩ | ⟨A, B, t1, t2, h, _⟩
          · exact absurd (List.mem_map.mpr ⟨_, hseg, rfl⟩) h
          · have hsv : (v, t1) ∈ p.segs := by rw [h]; simp
            have := (hg.tok v xv hxv s hs t1).mpr ⟨p, hp, hps, hsv⟩
            rw [this] at hd
            exact ⟨p, hp, hps, t1, [t], hsv, hseg, hd.symm⟩
      · rintro ⟨p, hp, hps, ts1, ts2, m1, m2, rfl⟩
        obtain ⟨t, rfl⟩ := hsingle p hp ts2 m2
        have d1 := (hg.tok v xv hxv s hs ts1).mpr ⟨p, hp, hps, m1⟩
        have d2 := (hg.tok c xc hxc s hs [t]).mpr ⟨p, hp, hps, m2⟩
        simp [d1, d2]
    have hget : ∀ u y, dget (joined g c v x).nodes u = some y →
        u ≠ c ∧ ((u = v ∧ y = x) ∨ (u ≠ v ∧ dget g.nodes u = some y)) := by
      intro u y hd
      have huc : u ≠ c := by
        have : u ∈ (joined g c v x).vertices := List.mem_map.mpr ⟨_, dget_mem hd, rfl⟩
        exact (mem_vertices_joined.mp this).2
      refine ⟨huc, ?_⟩
      rw [dget_joined hvc hg.nd hvm huc] at hd
      by_cases huv : u = v
      · rw [if_pos huv] at hd
        exact Or.inl ⟨huv, (Option.some.inj hd).symm⟩
      · rw [if_neg huv] at hd
        exact Or.inr ⟨huv, hd⟩
    constructor
    · rw [vertices_joined]; exact hg.nd.filter _
    · obtain ⟨l, hl⟩ := hg.hstart
      exact ⟨l, by rw [dget_joined hvc hg.nd hvm (Ne.symm hcs), if_neg (Ne.symm hvs)]; exact hl⟩
    · obtain ⟨l, hl⟩ := hg.hend
      exact ⟨l, by rw [dget_joined hvc hg.nd hvm (Ne.symm hce), if_neg (Ne.symm hve)]; exact hl⟩
    · intro u hu
      exact hg.fresh u (mem_vertices_joined.mp hu).1
    · rw [List.map_map]; exact hg.sig_nd
    · intro p hp
      obtain ⟨q, hq, rfl⟩ := List.mem_map.mp hp
      exact contract_ne_nil v c (hg.segs_ne q hq)
    · intro p hp r hr
      obtain ⟨q, hq, rfl⟩ := List.mem_map.mp hp
      obtain ⟨u, ts⟩ := r
      rcases (J.mem_segs hg hvs hq).mp hr with ⟨g1, g2, g3⟩ | ⟨rfl, t1, t2, g1, g2, rfl⟩
      · have := hg.segs_in q hq _ g3
        exact ⟨mem_vertices_joined.mpr ⟨this.1, g2⟩, this.2⟩
      · have h5 := hg.segs_in q hq _ g1
        refine ⟨mem_vertices_joined.mpr ⟨h5.1, hvc⟩, h5.2.1, h5.2.2.1, ?_⟩
        intro h0
        exact h5.2.2.2 (List.append_eq_nil_iff.mp h0).1
    · intro u hu hs he
      obtain ⟨hu1, hu2⟩ := mem_vertices_joined.mp hu
      obtain ⟨p, hp, hup⟩ := hg.cover u hu1 hs he
      exact ⟨_, List.mem_map.mpr ⟨p, hp, rfl⟩, (J.mem_inner hg hvs hp).mpr ⟨hup, hu2⟩⟩
    · intro a b
      rw [mem_pairs_joined hvc]
      constructor
      · rintro (⟨h5, h6⟩ | ⟨h5, h6⟩)
        · obtain ⟨p, hp, hc⟩ := (hg.edges_iff a b).mp h5
          exact ⟨_, List.mem_map.mpr ⟨p, hp, rfl⟩, (J.consec hg hvs hp).mpr (Or.inl ⟨hc, h6⟩)⟩
        · obtain ⟨p, hp, hc⟩ := (hg.edges_iff c b).mp h6
          exact ⟨_, List.mem_map.mpr ⟨p, hp, rfl⟩, (J.consec hg hvs hp).mpr (Or.inr ⟨h5, hc⟩)⟩
      · rintro ⟨p', hp', hc⟩
        obtain ⟨p, hp, rfl⟩ := List.mem_map.mp hp'
        rcases (J.consec hg hvs hp).mp hc with ⟨h5, h6⟩ | ⟨h5, h6⟩
        · exact Or.inl ⟨(hg.edges_iff a b).mpr ⟨p, hp, h5⟩, h6⟩
        · exact Or.inr ⟨h5, (hg.edges_iff c b).mpr ⟨p, hp, h6⟩⟩
    · -- no double edges
      unfold VGraph.pairs joined
      rw [List.map_append, List.nodup_append]
      refine ⟨hg.edges_nd.sublist (List.Sublist.map _ List.filter_sublist), ?_, ?_⟩
      · rw [List.map_map]
        have hsub : ((g.outEdges c).map (fun a : Edge => (a.src, a.tgt))).Nodup :=
          hg.edges_nd.sublist (List.Sublist.map _ List.filter_sublist)
        rw [List.nodup_iff_pairwise_ne, List.pairwise_map] at hsub ⊢
        refine hsub.imp_of_mem ?_
        intro a b ha hb hne he
        simp only [Function.comp, Prod.mk.injEq, true_and] at he
        apply hne
        rw [(mem_outEdges.mp ha).2, (mem_outEdges.mp hb).2, he]
      · intro a ha b hb hab
        obtain ⟨e1, he1, rfl⟩ := List.mem_map.mp ha
        rw [List.map_map] at hb
        obtain ⟨e2, _, rfl⟩ := List.mem_map.mp hb
        have := (List.mem_filter.mp he1).2
        simp only [decide_eq_true_eq] at this
        simp only [Function.comp, Prod.mk.injEq] at hab
        exact this.1 hab.1
    · -- tokens
      intro u y hd s hs ts
      obtain ⟨huc, ⟨rfl, rfl⟩ | ⟨huv, hd'⟩⟩ := hget u y hd
      · rw [htokv s hs ts]
        constructor
        · rintro ⟨p, hp, hps, h5⟩
          exact ⟨_, List.mem_map.mpr ⟨p, hp, rfl⟩, hps, (J.mem_segs hg hvs hp).mpr (Or.inr ⟨rfl, h5⟩)⟩
        · rintro ⟨p', hp', hps, h5⟩
          obtain ⟨p, hp, rfl⟩ := List.mem_map.mp hp'
          rcases (J.mem_segs hg hvs hp).mp h5 with ⟨h6, _⟩ | ⟨_, h6⟩
          · exact absurd rfl h6
          · exact ⟨p, hp, hps, h6⟩
      · rw [hg.tok u y hd' s hs ts]
        constructor
        · rintro ⟨p, hp, hps, h5⟩
          exact ⟨_, List.mem_map.mpr ⟨p, hp, rfl⟩, hps, (J.mem_segs hg hvs hp).mpr (Or.inl ⟨huv, huc, h5⟩)⟩
        · rintro ⟨p', hp', hps, h5⟩
          obtain ⟨p, hp, rfl⟩ := List.mem_map.mp hp'
          rcases (J.mem_segs hg hvs hp).mp h5 with ⟨_, _, h6⟩ | ⟨h6, _⟩
          · exact ⟨p, hp, hps, h6⟩
          · exact absurd h6 huv
    · intro u y hd ts hts
      obtain ⟨huc, ⟨rfl, rfl⟩ | ⟨huv, hd'⟩⟩ := hget u y hd
      · rw [h4 []] at hts
        simp only at hts
        have fin : (∃ p ∈ ps, p.sigil = [] ∧ u ∈ p.inner) → ∃ p ∈ ps.map (contractPath u c), p.sigil = [] ∧ u ∈ p.inner := by
          rintro ⟨p, hp, g1, g2⟩
          exact ⟨_, List.mem_map.mpr ⟨p, hp, rfl⟩, g1, (J.mem_inner hg hvs hp).mpr ⟨g2, hvc⟩⟩
        cases hdc : dget xc.tokens [] with
        | none =>
          rw [hdc] at hts
          simp only at hts
          have := hg.tok0 u xv hxv ts hts
          exact ⟨this.1, fin this.2⟩
        | some us =>
          obtain ⟨g1, p, hp, g2, g3⟩ := hg.tok0 c xc hxc us hdc
          refine ⟨?_, fin ⟨p, hp, g2, hpc p hp g3⟩⟩
          cases us with
          | nil => exact absurd rfl g1
          | cons t us =>
            rw [hdc] at hts
            simp only [Option.some.injEq] at hts
            rw [← hts]; simp
      · obtain ⟨g1, p, hp, g2, g3⟩ := hg.tok0 u y hd' ts hts
        exact ⟨g1, _, List.mem_map.mpr ⟨p, hp, rfl⟩, g2, (J.mem_inner hg hvs hp).mpr ⟨g3, huc⟩⟩
    · intro u y hd
      obtain ⟨huc, ⟨rfl, rfl⟩ | ⟨huv, hd'⟩⟩ := hget u y hd
      · exact h3
      · exact hg.tok_nd u y hd'
    · exact hg.near
    · obtain ⟨h, hh⟩ := hg.lay
      refine ⟨h, ?_⟩
      rintro ⟨a, b⟩ hp
      rcases (mem_pairs_joined hvc).mp hp with ⟨h5, _⟩ | ⟨rfl, h5⟩
      · exact hh _ h5
      · have g1 := hh _ J.edge
        have g2 := hh _ h5
        simp only at g1 g2 ⊢
        omega
    · -- labels
      classical
      have hlab : ∀ a b a' b', (∀ p ∈ ps, Consec (contractPath v c p).path a b ↔ Consec p.path a' b') →
          labelOf (ps.map (contractPath v c)) a b = labelOf ps a' b' := by
        intro a b a' b' hiff
        unfold labelOf
        rw [List.filter_map, List.map_map]
        congr 1
        have : ps.filter ((fun p => decide (Consec p.path a b)) ∘ contractPath v c) =
            ps.filter (fun p => decide (Consec p.path a' b')) := by
          apply List.filter_congr
          intro p hp
          simp only [Function.comp, hiff p hp]
        rw [this]
        rfl
      intro e he
      simp only [joined, List.mem_append, List.mem_filter, List.mem_map, ne_eq, decide_eq_true_eq] at he
      rcases he with ⟨he, h5, h6⟩ | ⟨e', he', rfl⟩
      · rw [hg.lab e he, hlab e.src e.tgt e.src e.tgt]
        intro p hp
        rw [J.consec hg hvs hp]
        constructor
        · rintro (⟨h, _⟩ | ⟨h, _⟩)
          · exact h
          · exact absurd h h5
        · intro h
          exact Or.inl ⟨h, h5, h6⟩
      · obtain ⟨g1, g2⟩ := mem_outEdges.mp he'
        simp only
        rw [hg.lab e' g1, g2, hlab v e'.tgt c e'.tgt]
        intro p hp
        rw [J.consec hg hvs hp]
        constructor
        · rintro (⟨_, h, _⟩ | ⟨_, h⟩)
          · exact absurd rfl h
          · exact h
        · intro h
          exact Or.inr ⟨rfl, h⟩

end
end CollateX
