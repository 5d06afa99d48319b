import Verif.Proofs.Prelude
import Verif.Proofs.Dict
import Verif.Spec.Graph
/-
The ranking: `VariantGraphRanking.of` on an acyclic graph without near edges.
-/

namespace CollateX
open Spec

/-- A graph that `topological_sort` can handle. -/
structure WF (g : VGraph) : Prop where
  nd : g.vertices.Nodup
  ends : ∀ p ∈ g.pairs, p.1 ∈ g.vertices ∧ p.2 ∈ g.vertices
  lay : Layered g.pairs

theorem mem_inEdges {g : VGraph} {e : Edge} {v : VId} : e ∈ g.inEdges v ↔ e ∈ g.edges ∧ e.tgt = v := by
  simp [VGraph.inEdges]

theorem mem_outEdges {g : VGraph} {e : Edge} {v : VId} : e ∈ g.outEdges v ↔ e ∈ g.edges ∧ e.src = v := by
  simp [VGraph.outEdges]

theorem mem_pairs_of_edge {g : VGraph} {e : Edge} (h : e ∈ g.edges) : (e.src, e.tgt) ∈ g.pairs :=
  List.mem_map_of_mem (f := fun e : Edge => (e.src, e.tgt)) h

theorem mem_pairs {g : VGraph} {u v : VId} : (u, v) ∈ g.pairs ↔ ∃ l, (⟨u, v, l⟩ : Edge) ∈ g.edges := by
  simp only [VGraph.pairs, List.mem_map, Prod.mk.injEq]
  constructor
  · rintro ⟨⟨a, b, l⟩, h, rfl, rfl⟩; exact ⟨l, h⟩
  · rintro ⟨l, h⟩; exact ⟨_, h, rfl, rfl⟩

/-- The rank a vertex should have, given the ranks of the others. -/
def inRank (g : VGraph) (rk : VId → Nat) (v : VId) : Nat :=
  ((g.inEdges v).map (fun e => rk e.src + 1)).foldr max 0

/-- `rk` satisfies the rank equation at every vertex. -/
def IsRank (g : VGraph) (rk : VId → Nat) : Prop := ∀ v ∈ g.vertices, rk v = inRank g rk v

theorem le_foldr_max {l : List Nat} {x : Nat} (h : x ∈ l) : x ≤ l.foldr max 0 := by
  induction l with
  | nil => simp at h
  | cons a l ih =>
    rcases List.mem_cons.mp h with rfl | h
    · simp
    · have := ih h; simp only [List.foldr_cons]; omega

theorem foldr_max_mem {l : List Nat} (h : 0 < l.foldr max 0) : l.foldr max 0 ∈ l := by
  induction l with
  | nil => simp at h
  | cons a l ih =>
    simp only [List.foldr_cons] at h ⊢
    by_cases h2 : l.foldr max 0 ≤ a
    · rw [Nat.max_eq_left h2]; simp
    · have e : max a (l.foldr max 0) = l.foldr max 0 := by omega
      rw [e]
      exact List.mem_cons_of_mem _ (ih (by omega))

theorem foldr_max_le {l : List Nat} {b : Nat} (h : ∀ x ∈ l, x ≤ b) : l.foldr max 0 ≤ b := by
  induction l with
  | nil => simp
  | cons a l ih =>
    simp only [List.foldr_cons]
    have h1 := h a (by simp)
    have h2 := ih (fun x hx => h x (by simp [hx]))
    omega

theorem IsRank.lt {g : VGraph} (wf : WF g) {rk : VId → Nat} (h : IsRank g rk) {u v : VId} (e : (u, v) ∈ g.pairs) :
    rk u < rk v := by
  obtain ⟨l, hl⟩ := mem_pairs.mp e
  rw [h v (wf.ends _ e).2]
  have : rk u + 1 ∈ (g.inEdges v).map (fun e => rk e.src + 1) :=
    List.mem_map.mpr ⟨⟨u, v, l⟩, mem_inEdges.mpr ⟨hl, rfl⟩, rfl⟩
  have := le_foldr_max this
  unfold inRank
  omega

theorem IsRank.pred {g : VGraph} {rk : VId → Nat} (h : IsRank g rk) {v : VId} (hv : v ∈ g.vertices)
    (hp : 0 < rk v) : ∃ u, (u, v) ∈ g.pairs ∧ rk u + 1 = rk v := by
  have h1 := h v hv
  rw [h1] at hp
  have h2 := foldr_max_mem hp
  obtain ⟨e, he, h3⟩ := List.mem_map.mp h2
  refine ⟨e.src, ?_, ?_⟩
  · have := mem_inEdges.mp he
    have h4 := mem_pairs_of_edge this.1
    rw [this.2] at h4
    exact h4
  · rw [h1]; exact h3

/-- Ranks are unique. -/
theorem IsRank.unique {g : VGraph} (wf : WF g) {rk rk' : VId → Nat} (h : IsRank g rk) (h' : IsRank g rk') :
    ∀ v ∈ g.vertices, rk v = rk' v := by
  have key : ∀ n, ∀ v ∈ g.vertices, rk v ≤ n → rk v ≤ rk' v := by
    intro n
    induction n with
    | zero => intro v _ hv; omega
    | succ n ih =>
      intro v hv hn
      by_cases h0 : 0 < rk v
      · obtain ⟨u, hu, hr⟩ := h.pred hv h0
        have := ih u (wf.ends _ hu).1 (by omega)
        have := h'.lt wf hu
        omega
      · omega
  have key' : ∀ n, ∀ v ∈ g.vertices, rk' v ≤ n → rk' v ≤ rk v := by
    intro n
    induction n with
    | zero => intro v _ hv; omega
    | succ n ih =>
      intro v hv hn
      by_cases h0 : 0 < rk' v
      · obtain ⟨u, hu, hr⟩ := h'.pred hv h0
        have := ih u (wf.ends _ hu).1 (by omega)
        have := h.lt wf hu
        omega
      · omega
  intro v hv
  have := key _ v hv (Nat.le_refl _)
  have := key' _ v hv (Nat.le_refl _)
  omega

/-- Ranks are longest-walk lengths. -/
theorem IsRank.longest {g : VGraph} (wf : WF g) {rk : VId → Nat} (h : IsRank g rk) {v : VId} (hv : v ∈ g.vertices) :
    LongestTo g.pairs v (rk v) := by
  constructor
  · have key : ∀ n, ∀ v ∈ g.vertices, rk v = n → ∃ u, Walk g.pairs u v n := by
      intro n
      induction n with
      | zero => intro v _ _; exact ⟨v, .nil v⟩
      | succ n ih =>
        intro v hv hr
        obtain ⟨u, hu, hru⟩ := h.pred hv (by omega)
        obtain ⟨w, hw⟩ := ih u (wf.ends _ hu).1 (by omega)
        exact ⟨w, .snoc hw hu⟩
    exact key _ v hv rfl
  · intro u n hw
    have key : rk u + n ≤ rk v := by
      induction hw with
      | nil => omega
      | snoc hw he ih =>
        have := h.lt wf he
        have := ih (wf.ends _ he).1
        omega
    omega

/-! ### The first loop -/

theorem rankOfIn_ok (bv : Dict VId Nat) (rk : VId → Nat) (es : List Edge) (acc : Nat)
    (h : ∀ e ∈ es, dget bv e.src = some (rk e.src)) :
    rankOfIn bv es acc = .ok (max acc ((es.map (fun e => rk e.src + 1)).foldr max 0)) := by
  induction es generalizing acc with
  | nil => simp [rankOfIn]
  | cons e es ih =>
    simp only [rankOfIn, dgetE_of_dget (h e (by simp)), bind_ok]
    rw [ih _ (fun x hx => h x (by simp [hx]))]
    simp only [List.map_cons, List.foldr_cons]
    congr 1
    omega

/-- State of the ranking after the vertices `dn`, for ranks `rk` below `m`. -/
structure RankSt (rk : VId → Nat) (dn : List VId) (m : Nat) (r : Ranking) : Prop where
  bv : r.byVertex = dn.map (fun v => (v, rk v))
  br : r.byRank = (List.range m).map (fun k => (k, dn.filter (fun v => rk v = k)))
  lt : ∀ v ∈ dn, rk v < m
  ne : ∀ k < m, ∃ v ∈ dn, rk v = k

theorem dget_map_self (f : VId → Nat) (l : List VId) (v : VId) (h : v ∈ l) :
    dget (l.map (fun v => (v, f v))) v = some (f v) := by
  induction l with
  | nil => simp at h
  | cons a l ih =>
    simp only [List.map_cons, dget]
    split
    · rename_i h2; rw [h2]
    · rename_i h2
      rcases List.mem_cons.mp h with h3 | h3
      · exact absurd h3.symm h2
      · exact ih h3

theorem keys_map_pair {A B : Type} (f : A → B) (l : List A) :
    (l.map (fun v => (v, f v))).map Prod.fst = l := by
  induction l with
  | nil => rfl
  | cons a l ih => simp [ih]

theorem dget_range_map {V : Type} (f : Nat → V) (m k : Nat) :
    dget ((List.range m).map (fun k => (k, f k))) k = if k < m then some (f k) else none := by
  split
  · rename_i h
    apply dget_of_mem
    · rw [keys_map_pair]; exact List.nodup_range
    · exact List.mem_map.mpr ⟨k, List.mem_range.mpr h, rfl⟩
  · rename_i h
    rw [dget_eq_none_iff, keys_map_pair]
    simpa using h

theorem dset_map_pair {K V : Type} [DecidableEq K] (f : K → V) (l : List K) (nd : l.Nodup) (k : K) (v : V) (hk : k ∈ l) :
    dset (l.map (fun x => (x, f x))) k v = l.map (fun x => (x, if x = k then v else f x)) := by
  induction l with
  | nil => simp at hk
  | cons a l ih =>
    simp only [List.nodup_cons] at nd
    simp only [List.map_cons, dset]
    by_cases h : a = k
    · subst h
      simp only [if_true]
      congr 1
      apply List.map_congr_left
      intro x hx
      have : x ≠ a := by rintro rfl; exact nd.1 hx
      simp [this]
    · rw [if_neg h, if_neg h, ih nd.2 (by
        rcases List.mem_cons.mp hk with h2 | h2
        · exact absurd h2.symm h
        · exact h2)]

theorem RankSt.step {rk : VId → Nat} {dn : List VId} {m : Nat} {r : Ranking} (h : RankSt rk dn m r) {v : VId}
    (hv : v ∉ dn) (hk : rk v ≤ m) :
    ∃ m', RankSt rk (dn ++ [v]) m'
      { byVertex := dset r.byVertex v (rk v), byRank := setdefaultAppend r.byRank (rk v) v } := by
  have hbv : dset r.byVertex v (rk v) = (dn ++ [v]).map (fun v => (v, rk v)) := by
    rw [h.bv, dset_of_not_mem (by rw [keys_map_pair]; exact hv)]
    simp
  by_cases hlt : rk v < m
  · refine ⟨m, ⟨hbv, ?_, ?_, ?_⟩⟩
    · simp only
      unfold setdefaultAppend
      rw [h.br, dget_range_map, if_pos hlt]
      simp only
      rw [dset_map_pair _ _ List.nodup_range _ _ (List.mem_range.mpr hlt)]
      apply List.map_congr_left
      intro k _
      simp only [List.filter_append]
      by_cases hkk : k = rk v
      · subst hkk; simp
      · rw [if_neg hkk]
        have : List.filter (fun v => decide (rk v = k)) [v] = [] := by simp [Ne.symm hkk]
        rw [this, List.append_nil]
    · intro w hw
      rcases List.mem_append.mp hw with hw | hw
      · exact h.lt w hw
      · simp at hw; subst hw; exact hlt
    · intro k hk
      obtain ⟨w, hw, he⟩ := h.ne k hk
      exact ⟨w, by simp [hw], he⟩
  · have hm : rk v = m := by omega
    refine ⟨m + 1, ⟨hbv, ?_, ?_, ?_⟩⟩
    · simp only
      unfold setdefaultAppend
      rw [h.br, dget_range_map, if_neg hlt]
      simp only
      rw [dset_of_not_mem (by rw [keys_map_pair]; simp [hm]), List.range_succ, List.map_append]
      congr 1
      · apply List.map_congr_left
        intro k hkm
        have : k < m := List.mem_range.mp hkm
        simp only [List.filter_append]
        have e : List.filter (fun v => decide (rk v = k)) [v] = [] := by simp; omega
        rw [e, List.append_nil]
      · simp only [List.map_cons, List.map_nil, List.filter_append]
        have e1 : List.filter (fun v => decide (rk v = m)) dn = [] := by
          rw [List.filter_eq_nil_iff]
          intro w hw
          have := h.lt w hw
          simp; omega
        rw [e1, hm]
        simp [hm]
    · intro w hw
      rcases List.mem_append.mp hw with hw | hw
      · have := h.lt w hw; omega
      · simp at hw; subst hw; omega
    · intro k hk
      by_cases hkm : k < m
      · obtain ⟨w, hw, he⟩ := h.ne k hkm
        exact ⟨w, by simp [hw], he⟩
      · exact ⟨v, by simp, by omega⟩

/-- Ranks for a topological order exist: every numbering of the processed vertices extends. -/
theorem rankPass_ok {g : VGraph} (wf : WF g) {o : List VId} (ho : IsTopo g.vertices g.pairs o) :
    ∀ (rest dn : List VId) (rk : VId → Nat) (m : Nat) (r : Ranking), o = dn ++ rest →
      (∀ v ∈ dn, rk v = inRank g rk v) → RankSt rk dn m r →
      ∃ rk' m' r', rankPass g rest r = .ok r' ∧ (∀ v ∈ o, rk' v = inRank g rk' v) ∧ RankSt rk' o m' r' := by
  have hnd : o.Nodup := ho.perm.nodup_iff.mpr wf.nd
  intro rest
  induction rest with
  | nil =>
    intro dn rk m r hdn hrk hst
    rw [List.append_nil] at hdn
    subst hdn
    exact ⟨rk, m, r, rfl, hrk, hst⟩
  | cons v rest ih =>
    intro dn rk m r hdn hrk hst
    have hsrc : ∀ e ∈ g.inEdges v, e.src ∈ dn := by
      intro e he
      have := mem_inEdges.mp he
      have hp := mem_pairs_of_edge this.1
      exact ho.before _ hp dn rest (by rw [this.2]; exact hdn)
    have hv : v ∉ dn := by
      rw [hdn, List.nodup_append] at hnd
      intro hv
      exact hnd.2.2 v hv v (by simp) rfl
    -- the new numbering
    let rk' : VId → Nat := fun w => if w = v then inRank g rk v else rk w
    have hagree : ∀ w ∈ dn, rk' w = rk w := by
      intro w hw
      have : w ≠ v := by rintro rfl; exact hv hw
      simp [rk', this]
    have hin : ∀ w, (∀ e ∈ g.inEdges w, e.src ∈ dn) → inRank g rk' w = inRank g rk w := by
      intro w hw
      unfold inRank
      congr 1
      apply List.map_congr_left
      intro e he
      rw [hagree _ (hw e he)]
    have hsrc_dn : ∀ w ∈ dn, ∀ e ∈ g.inEdges w, e.src ∈ dn := by
      intro w hw e he
      have := mem_inEdges.mp he
      have hp := mem_pairs_of_edge this.1
      obtain ⟨a, b, rfl⟩ := List.append_of_mem hw
      have := ho.before _ hp a (b ++ v :: rest) (by rw [this.2, hdn]; simp)
      simp only at this
      simp [this]
    have hst' : RankSt rk' dn m r := by
      refine ⟨?_, ?_, ?_, ?_⟩
      · rw [hst.bv]; apply List.map_congr_left; intro w hw; rw [hagree w hw]
      · rw [hst.br]; apply List.map_congr_left; intro k _; congr 1
        apply List.filter_congr; intro w hw; rw [hagree w hw]
      · intro w hw; rw [hagree w hw]; exact hst.lt w hw
      · intro k hk; obtain ⟨w, hw, he⟩ := hst.ne k hk; exact ⟨w, hw, by rw [hagree w hw]; exact he⟩
    have hrkv : rk' v = inRank g rk v := by simp [rk']
    have hle : rk' v ≤ m := by
      rw [hrkv]
      apply foldr_max_le
      intro x hx
      obtain ⟨e, he, rfl⟩ := List.mem_map.mp hx
      have := hst.lt _ (hsrc e he)
      omega
    obtain ⟨m', hm'⟩ := hst'.step hv hle
    have hcall : rankOfIn r.byVertex (g.inEdges v) 0 = .ok (rk' v) := by
      rw [rankOfIn_ok r.byVertex rk]
      · rw [hrkv]; simp [inRank]
      · intro e he
        rw [hst.bv]
        exact dget_map_self rk dn _ (hsrc e he)
    obtain ⟨rk2, m2, r2, h1, h2, h3⟩ := ih (dn ++ [v]) rk' m' _ (by rw [hdn]; simp) (by
      intro w hw
      rcases List.mem_append.mp hw with hw | hw
      · rw [hagree w hw, hin w (hsrc_dn w hw), hrk w hw]
      · simp at hw; subst hw
        rw [hrkv, hin w hsrc]) hm'
    refine ⟨rk2, m2, r2, ?_, h2, h3⟩
    simp only [rankPass, hcall, bind_ok]
    exact h1

theorem nearPass_nil {g : VGraph} (hn : g.near = []) (vs : List VId) (r : Ranking) : nearPass g vs r = .ok r := by
  induction vs with
  | nil => rfl
  | cons v vs ih =>
    have : g.inNear v = [] := by simp [VGraph.inNear, hn]
    simp only [nearPass, this, nearSteps, bind_ok, ih]

/-- The ranking of an acyclic graph without near edges. -/
structure RankingOf (g : VGraph) (rk : VId → Nat) (o : List VId) (m : Nat) (r : Ranking) : Prop where
  isRank : IsRank g rk
  topo : IsTopo g.vertices g.pairs o
  st : RankSt rk o m r

theorem rankingOf_base {ts : TopoFn} (hts : TopoSpec ts) {g : VGraph} (wf : WF g) :
    ∃ o rk m r, g.topo ts = .ok o ∧ rankPass g o ⟨[], []⟩ = .ok r ∧ RankingOf g rk o m r := by
  obtain ⟨o, ho, htopo⟩ := hts g.vertices g.pairs wf.nd wf.ends wf.lay
  obtain ⟨rk, m, r, h1, h2, h3⟩ := rankPass_ok wf htopo o [] (fun _ => 0) 0 ⟨[], []⟩ rfl (by simp)
    ⟨rfl, rfl, by simp, by simp⟩
  refine ⟨o, rk, m, r, ?_, h1, ⟨fun v hv => h2 v (htopo.perm.mem_iff.mpr hv), htopo, h3⟩⟩
  unfold VGraph.topo
  have : ts g.vertices (g.edges.map (fun e => (e.src, e.tgt))) = some o := ho
  rw [this]

theorem rankingOf_ok {ts : TopoFn} (hts : TopoSpec ts) {g : VGraph} (wf : WF g) (hn : g.near = []) :
    ∃ rk o m r, rankingOf ts g = .ok r ∧ RankingOf g rk o m r := by
  obtain ⟨o, rk, m, r, h1, h2, h3⟩ := rankingOf_base hts wf
  refine ⟨rk, o, m, r, ?_, h3⟩
  unfold rankingOf
  rw [h1]
  simp only [bind_ok, h2]
  exact nearPass_nil hn _ _

theorem RankingOf.byVertex {g : VGraph} {rk : VId → Nat} {o : List VId} {m : Nat} {r : Ranking}
    (h : RankingOf g rk o m r) {v : VId} (hv : v ∈ g.vertices) : dget r.byVertex v = some (rk v) := by
  rw [h.st.bv]
  exact dget_map_self rk o v (h.topo.perm.mem_iff.mpr hv)

theorem RankingOf.lt_m {g : VGraph} {rk : VId → Nat} {o : List VId} {m : Nat} {r : Ranking}
    (h : RankingOf g rk o m r) {v : VId} (hv : v ∈ g.vertices) : rk v < m :=
  h.st.lt v (h.topo.perm.mem_iff.mpr hv)

end CollateX
