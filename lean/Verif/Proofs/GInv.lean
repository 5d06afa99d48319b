import Verif.Proofs.Ranking
/-
The graph invariant: a variant graph together with the paths of its witnesses.
-/

namespace CollateX
open Spec

/-- The reading of a witness: the inner vertices of its path, with the tokens it has there. -/
structure WPath where
  sigil : Str
  segs : List (VId × List Token)

/-- The inner vertices. -/
def WPath.inner (p : WPath) : List VId := p.segs.map Prod.fst

/-- The whole path, from start to end. -/
def WPath.path (p : WPath) : List VId := startV :: (p.inner ++ [endV])

/-- `u` is directly followed by `v` in the list. -/
def Consec (l : List VId) (u v : VId) : Prop := [u, v] <:+: l

open scoped Classical in
/-- The sigla of the paths along an edge, separated by commas. -/
noncomputable def labelOf (ps : List WPath) (u v : VId) : Str :=
  List.intercalate (S ", ") ((ps.filter (fun p => decide (Consec p.path u v))).map WPath.sigil)

/-- `g` consists exactly of the paths `ps`. For the empty siglum (which the vertex constructor ignores) the tokens on the
vertices are not described precisely. -/
structure GInv (g : VGraph) (ps : List WPath) : Prop where
  nd : g.vertices.Nodup
  hstart : ∃ l, dget g.nodes startV = some ⟨l, []⟩
  hend : ∃ l, dget g.nodes endV = some ⟨l, []⟩
  fresh : ∀ v ∈ g.vertices, v < g.next
  sig_nd : (ps.map WPath.sigil).Nodup
  segs_ne : ∀ p ∈ ps, p.segs ≠ []
  segs_in : ∀ p ∈ ps, ∀ q ∈ p.segs, q.1 ∈ g.vertices ∧ q.1 ≠ startV ∧ q.1 ≠ endV ∧ q.2 ≠ []
  cover : ∀ v ∈ g.vertices, v ≠ startV → v ≠ endV → ∃ p ∈ ps, v ∈ p.inner
  edges_iff : ∀ u v, (u, v) ∈ g.pairs ↔ ∃ p ∈ ps, Consec p.path u v
  edges_nd : g.pairs.Nodup
  tok : ∀ v x, dget g.nodes v = some x → ∀ s, s ≠ [] → ∀ ts,
    dget x.tokens s = some ts ↔ ∃ p ∈ ps, p.sigil = s ∧ (v, ts) ∈ p.segs
  tok0 : ∀ v x, dget g.nodes v = some x → ∀ ts, dget x.tokens [] = some ts →
    ts ≠ [] ∧ ∃ p ∈ ps, p.sigil = [] ∧ v ∈ p.inner
  tok_nd : ∀ v x, dget g.nodes v = some x → (x.tokens.map Prod.fst).Nodup
  near : g.near = []
  lay : Layered g.pairs
  lab : ∀ e ∈ g.edges, e.label = labelOf ps e.src e.tgt

theorem consec_cons {a : VId} {l : List VId} {u v : VId} :
    Consec (a :: l) u v ↔ (a = u ∧ l.head? = some v) ∨ Consec l u v := by
  unfold Consec
  rw [List.infix_cons_iff]
  apply or_congr _ Iff.rfl
  cases l with
  | nil => simp
  | cons b l => simp [eq_comm]

theorem consec_nil {u v : VId} : ¬ Consec [] u v := by
  intro h; have := h.length_le; simp at this

theorem consec_single {a u v : VId} : ¬ Consec [a] u v := by
  intro h; have := h.length_le; simp at this

theorem Consec.mem_left {l : List VId} {u v : VId} (h : Consec l u v) : u ∈ l :=
  h.subset (by simp)

theorem Consec.mem_right {l : List VId} {u v : VId} (h : Consec l u v) : v ∈ l :=
  h.subset (by simp)

/-- Consecutive elements, by index. -/
theorem consec_iff_getElem {l : List VId} {u v : VId} :
    Consec l u v ↔ ∃ i, l[i]? = some u ∧ l[i + 1]? = some v := by
  induction l with
  | nil => simp [consec_nil]
  | cons a l ih =>
    rw [consec_cons, ih]
    constructor
    · rintro (⟨rfl, h⟩ | ⟨i, h1, h2⟩)
      · refine ⟨0, rfl, ?_⟩
        simpa [List.head?_eq_getElem?] using h
      · exact ⟨i + 1, by simpa using h1, by simpa using h2⟩
    · rintro ⟨i, h1, h2⟩
      cases i with
      | zero =>
        left
        simp at h1 h2
        exact ⟨h1, by simpa [List.head?_eq_getElem?] using h2⟩
      | succ i =>
        right
        exact ⟨i, by simpa using h1, by simpa using h2⟩

theorem consec_append_single {l : List VId} {a u v : VId} :
    Consec (l ++ [a]) u v ↔ Consec l u v ∨ (l.getLast? = some u ∧ a = v) := by
  induction l with
  | nil => simp [consec_nil, consec_single]
  | cons b l ih =>
    rw [List.cons_append, consec_cons, ih, consec_cons]
    cases l with
    | nil => simp [consec_nil]
    | cons c l =>
      simp only [List.cons_append, List.head?_cons, Option.some.injEq, List.getLast?_cons_cons]
      tauto

/-- Along a list whose consecutive elements go up, the elements go up. -/
theorem pairwise_of_consec {l : List VId} {h : VId → Nat} (hh : ∀ u v, Consec l u v → h u < h v) :
    l.Pairwise (fun u v => h u < h v) := by
  induction l with
  | nil => exact .nil
  | cons a l ih =>
    have ih' := ih (fun u v hc => hh u v (consec_cons.mpr (Or.inr hc)))
    refine List.pairwise_cons.mpr ⟨?_, ih'⟩
    cases l with
    | nil => simp
    | cons b l =>
      have hab : h a < h b := hh a b (consec_cons.mpr (Or.inl ⟨rfl, rfl⟩))
      intro c hc
      rcases List.mem_cons.mp hc with rfl | hc
      · exact hab
      · have := (List.pairwise_cons.mp ih').1 c hc
        omega

theorem GInv.wf {g : VGraph} {ps : List WPath} (hg : GInv g ps) : WF g := by
  refine ⟨hg.nd, ?_, hg.lay⟩
  have hs : startV ∈ g.vertices := by
    obtain ⟨l, hl⟩ := hg.hstart
    exact List.mem_map_of_mem (f := Prod.fst) (dget_mem hl)
  have he : endV ∈ g.vertices := by
    obtain ⟨l, hl⟩ := hg.hend
    exact List.mem_map_of_mem (f := Prod.fst) (dget_mem hl)
  have hmem : ∀ p ∈ ps, ∀ v ∈ p.path, v ∈ g.vertices := by
    intro p hp v hv
    unfold WPath.path at hv
    rcases List.mem_cons.mp hv with rfl | hv
    · exact hs
    · rcases List.mem_append.mp hv with hv | hv
      · obtain ⟨q, hq, rfl⟩ := List.mem_map.mp hv
        exact (hg.segs_in p hp q hq).1
      · simp at hv; subst hv; exact he
  rintro ⟨u, v⟩ h
  obtain ⟨p, hp, hc⟩ := (hg.edges_iff u v).mp h
  exact ⟨hmem p hp u hc.mem_left, hmem p hp v hc.mem_right⟩

theorem GInv.start_mem {g : VGraph} {ps : List WPath} (hg : GInv g ps) : startV ∈ g.vertices := by
  obtain ⟨l, hl⟩ := hg.hstart
  exact List.mem_map_of_mem (f := Prod.fst) (dget_mem hl)

theorem GInv.end_mem {g : VGraph} {ps : List WPath} (hg : GInv g ps) : endV ∈ g.vertices := by
  obtain ⟨l, hl⟩ := hg.hend
  exact List.mem_map_of_mem (f := Prod.fst) (dget_mem hl)

/-- Along a path the ranks go up strictly. -/
theorem GInv.path_increasing {g : VGraph} {ps : List WPath} (hg : GInv g ps) {h : VId → Nat}
    (hh : ∀ p ∈ g.pairs, h p.1 < h p.2) {p : WPath} (hp : p ∈ ps) : p.path.Pairwise (fun u v => h u < h v) := by
  apply pairwise_of_consec
  intro u v hc
  exact hh (u, v) ((hg.edges_iff u v).mpr ⟨p, hp, hc⟩)

theorem GInv.path_nodup {g : VGraph} {ps : List WPath} (hg : GInv g ps) {p : WPath} (hp : p ∈ ps) : p.path.Nodup := by
  obtain ⟨h, hh⟩ := hg.lay
  exact (hg.path_increasing hh hp).imp (fun hab e => by subst e; omega)

theorem GInv.inner_nodup {g : VGraph} {ps : List WPath} (hg : GInv g ps) {p : WPath} (hp : p ∈ ps) : p.inner.Nodup := by
  have := hg.path_nodup hp
  unfold WPath.path at this
  exact (List.nodup_append.mp (List.nodup_cons.mp this).2).1

/-- The empty graph. -/
theorem GInv.init : GInv VGraph.init [] where
  nd := by decide
  hstart := ⟨_, rfl⟩
  hend := ⟨_, rfl⟩
  fresh := by decide
  sig_nd := by simp
  segs_ne := by simp
  segs_in := by simp
  cover := by
    intro v hv h1 h2
    have : v = startV ∨ v = endV := by simpa [VGraph.init, VGraph.vertices] using hv
    rcases this with h | h
    · exact absurd h h1
    · exact absurd h h2
  edges_iff := by simp [VGraph.init, VGraph.pairs]
  edges_nd := by simp [VGraph.init, VGraph.pairs]
  tok := by
    intro v x hx s hs ts
    have hx2 := dget_mem hx
    have : x.tokens = [] := by
      rcases List.mem_cons.mp hx2 with h | h
      · injection h with _ h; subst h; rfl
      · rcases List.mem_cons.mp h with h | h
        · injection h with _ h; subst h; rfl
        · exact absurd h (by simp)
    simp [this]
  tok0 := by
    intro v x hx ts hts
    have hx2 := dget_mem hx
    have : x.tokens = [] := by
      rcases List.mem_cons.mp hx2 with h | h
      · injection h with _ h; subst h; rfl
      · rcases List.mem_cons.mp h with h | h
        · injection h with _ h; subst h; rfl
        · exact absurd h (by simp)
    simp [this] at hts
  tok_nd := by
    intro v x hx
    have hx2 := dget_mem hx
    have : x.tokens = [] := by
      rcases List.mem_cons.mp hx2 with h | h
      · injection h with _ h; subst h; rfl
      · rcases List.mem_cons.mp h with h | h
        · injection h with _ h; subst h; rfl
        · exact absurd h (by simp)
    simp [this]
  near := rfl
  lay := ⟨fun _ => 0, by simp [VGraph.init, VGraph.pairs]⟩
  lab := by simp [VGraph.init]

/-- A rank function, as the aligner's ranking gives it, puts start first and end last. -/
theorem GInv.rank_bounds {g : VGraph} {ps : List WPath} (hg : GInv g ps) (hne : ps ≠ []) {h : VId → Nat}
    (hh : ∀ p ∈ g.pairs, h p.1 < h p.2) : ∀ v ∈ g.vertices,
      (v ≠ startV → h startV < h v) ∧ (v ≠ endV → h v < h endV) := by
  have hse : h startV < h endV := by
    obtain ⟨p, ps', rfl⟩ := List.exists_cons_of_ne_nil hne
    have := hg.path_increasing hh (p := p) (by simp)
    unfold WPath.path at this
    exact (List.pairwise_cons.mp this).1 endV (by simp)
  intro v hv
  by_cases h1 : v = startV
  · subst h1
    exact ⟨fun h => absurd rfl h, fun _ => hse⟩
  · by_cases h2 : v = endV
    · subst h2; exact ⟨fun _ => hse, fun h => absurd rfl h⟩
    · obtain ⟨p, hp, hvp⟩ := hg.cover v hv h1 h2
      have := hg.path_increasing hh hp
      unfold WPath.path at this
      have h3 := List.pairwise_cons.mp this
      refine ⟨fun _ => h3.1 v (by simp [hvp]), fun _ => ?_⟩
      exact (List.pairwise_append.mp h3.2).2.2 v hvp endV (by simp)

end CollateX
