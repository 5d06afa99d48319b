import Verif.Proofs.Topo
/-
Ranking: C20 and C21, for every acyclic graph. (The versions for the graphs made by `collate` are in `Props/Graph.lean`.)
-/

namespace CollateX
open Spec

/-- A graph with distinct vertices, whose edges join its vertices, without directed cycles. -/
structure Spec.Dag (g : VGraph) : Prop where
  nodup : g.vertices.Nodup
  ends : ∀ p ∈ g.pairs, p.1 ∈ g.vertices ∧ p.2 ∈ g.vertices
  acyclic : NoCycle g.pairs

theorem _root_.CollateX.Spec.Dag.wf {g : VGraph} (h : Dag g) : WF g := ⟨h.nodup, h.ends, NoCycle.layered h.acyclic⟩

/-- C20. For every acyclic graph and whatever topological order is used, ranking succeeds, ranks exactly the vertices of the
graph, and the rank of a vertex is the length of a longest walk ending in it. -/
theorem C20_rank_is_longest_path (ts : TopoFn) (hts : TopoSpec ts) (g : VGraph) (hg : Dag g) (hn : g.near = []) :
    ∃ r, rankingOf ts g = .ok r ∧ (r.byVertex.map Prod.fst).Perm g.vertices ∧
      ∀ v ∈ g.vertices, ∃ k, dget r.byVertex v = some k ∧ LongestTo g.pairs v k := by
  obtain ⟨rk, o, m, r, h1, h2⟩ := rankingOf_ok hts hg.wf hn
  refine ⟨r, h1, ?_, ?_⟩
  · rw [h2.st.bv, keys_map_pair]; exact h2.topo.perm
  · intro v hv
    exact ⟨rk v, h2.byVertex hv, h2.isRank.longest hg.wf hv⟩

/-- C20. Every edge strictly increases the rank. -/
theorem C20_edges_increase (ts : TopoFn) (hts : TopoSpec ts) (g : VGraph) (hg : Dag g) (hn : g.near = []) (r : Ranking)
    (hr : rankingOf ts g = .ok r) (e : Edge) (he : e ∈ g.edges) :
    ∃ a b, dget r.byVertex e.src = some a ∧ dget r.byVertex e.tgt = some b ∧ a < b := by
  obtain ⟨rk, o, m, r', h1, h2⟩ := rankingOf_ok hts hg.wf hn
  rw [hr] at h1
  obtain rfl := Except.ok.inj h1
  have hp := mem_pairs_of_edge he
  have hen := hg.ends _ hp
  exact ⟨_, _, h2.byVertex hen.1, h2.byVertex hen.2, h2.isRank.lt hg.wf hp⟩

/-- C20. The rank of each vertex does not depend on the topological order. -/
theorem C20_order_independent (ts ts' : TopoFn) (hts : TopoSpec ts) (hts' : TopoSpec ts') (g : VGraph) (hg : Dag g)
    (hn : g.near = []) (r r' : Ranking) (hr : rankingOf ts g = .ok r) (hr' : rankingOf ts' g = .ok r') (v : VId)
    (hv : v ∈ g.vertices) : dget r.byVertex v = dget r'.byVertex v := by
  obtain ⟨rk, o, m, r1, h1, h2⟩ := rankingOf_ok hts hg.wf hn
  obtain ⟨rk', o', m', r1', h1', h2'⟩ := rankingOf_ok hts' hg.wf hn
  rw [hr] at h1
  rw [hr'] at h1'
  obtain rfl := Except.ok.inj h1
  obtain rfl := Except.ok.inj h1'
  rw [h2.byVertex hv, h2'.byVertex hv, h2.isRank.unique hg.wf h2'.isRank v hv]

/-- C21. The ranks are listed in the order 0, 1, 2, ... without holes; under rank `k` stand exactly the vertices of rank `k`,
each once (and there is at least one). -/
theorem C21_ranks_in_order (ts : TopoFn) (hts : TopoSpec ts) (g : VGraph) (hg : Dag g) (hn : g.near = []) (r : Ranking)
    (hr : rankingOf ts g = .ok r) :
    r.byRank.map Prod.fst = List.range r.byRank.length ∧
      ∀ k vs, (k, vs) ∈ r.byRank → vs ≠ [] ∧ vs.Nodup ∧
        ∀ v, v ∈ vs ↔ v ∈ g.vertices ∧ dget r.byVertex v = some k := by
  obtain ⟨rk, o, m, r1, h1, h2⟩ := rankingOf_ok hts hg.wf hn
  rw [hr] at h1
  obtain rfl := Except.ok.inj h1
  have hlen : r.byRank.length = m := by rw [h2.st.br]; simp
  refine ⟨?_, ?_⟩
  · rw [hlen, h2.st.br, keys_map_pair]
  · intro k vs hk
    rw [h2.st.br] at hk
    obtain ⟨k', hk', he⟩ := List.mem_map.mp hk
    simp only [Prod.mk.injEq] at he
    obtain ⟨rfl, rfl⟩ := he
    have hk'' := List.mem_range.mp hk'
    refine ⟨?_, ?_, ?_⟩
    · obtain ⟨v, hv, he⟩ := h2.st.ne k' hk''
      intro h0
      have : v ∈ o.filter (fun v => rk v = k') := List.mem_filter.mpr ⟨hv, by simpa using he⟩
      rw [h0] at this
      simp at this
    · exact (h2.topo.perm.nodup_iff.mpr hg.nodup).filter _
    · intro v
      rw [List.mem_filter, h2.topo.perm.mem_iff]
      constructor
      · rintro ⟨hv, he⟩
        exact ⟨hv, by rw [h2.byVertex hv]; simpa using he⟩
      · rintro ⟨hv, he⟩
        refine ⟨hv, ?_⟩
        rw [h2.byVertex hv] at he
        simpa using he

/-- A diamond with one longer side: 0→2→1, 0→3→4→1, and 2→4. -/
def diamond : VGraph :=
  { nodes := [(0, ⟨S "start", []⟩), (1, ⟨S "end", []⟩), (2, ⟨S "a", []⟩), (3, ⟨S "b", []⟩), (4, ⟨S "c", []⟩)]
    edges := [⟨0, 2, S "A"⟩, ⟨2, 1, S "A"⟩, ⟨0, 3, S "B"⟩, ⟨3, 4, S "B"⟩, ⟨4, 1, S "B"⟩, ⟨2, 4, S "C"⟩]
    near := []
    next := 5 }

/-- The hypotheses of C20 and C21 are satisfiable: the diamond is acyclic, and Kahn's algorithm is a topological sort. -/
example : Dag diamond ∧ TopoSpec kahn ∧
    rankingOf kahn diamond = .ok { byVertex := [(0, 0), (2, 1), (3, 1), (4, 2), (1, 3)],
                                   byRank := [(0, [0]), (1, [2, 3]), (2, [4]), (3, [1])] } := by
  refine ⟨⟨by decide, by decide, ?_⟩, kahn_spec, by decide +kernel⟩
  apply Layered.noCycle
  exact ⟨fun v => [0, 3, 1, 1, 2].getD v 0, by decide⟩

end CollateX
