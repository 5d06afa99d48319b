import Verif.Proofs.GInv
/-
`merge` adds one path to the graph and keeps the invariant.
-/

namespace CollateX
open Spec

/-! ### The graph operations -/

theorem hasEdge_iff {g : VGraph} {u v : VId} : g.hasEdge u v = true ↔ (u, v) ∈ g.pairs := by
  simp only [VGraph.hasEdge, List.any_eq_true, decide_eq_true_eq, VGraph.pairs, List.mem_map, Prod.mk.injEq]

theorem pairs_connect (g : VGraph) (u v : VId) (s : Str) :
    (g.connect u v s).pairs = if (u, v) ∈ g.pairs then g.pairs else g.pairs ++ [(u, v)] := by
  unfold VGraph.connect
  by_cases h : (u, v) ∈ g.pairs
  · rw [if_pos (hasEdge_iff.mpr h), if_pos h]
    simp only [VGraph.pairs, List.map_map]
    apply List.map_congr_left
    intro e _
    simp only [Function.comp]
    split <;> rfl
  · rw [if_neg (fun h2 => h (hasEdge_iff.mp h2)), if_neg h]
    simp [VGraph.pairs]

theorem mem_pairs_connect {g : VGraph} {u v : VId} {s : Str} {p : VId × VId} :
    p ∈ (g.connect u v s).pairs ↔ p ∈ g.pairs ∨ p = (u, v) := by
  rw [pairs_connect]
  split
  · constructor
    · exact Or.inl
    · rintro (h | rfl)
      · exact h
      · assumption
  · simp

theorem nodup_pairs_connect {g : VGraph} {u v : VId} {s : Str} (h : g.pairs.Nodup) : (g.connect u v s).pairs.Nodup := by
  rw [pairs_connect]
  split
  · exact h
  · rename_i hn
    rw [List.nodup_append]
    refine ⟨h, by simp, ?_⟩
    intro a ha b hb hab
    simp at hb
    subst hb; subst hab; exact hn ha

@[simp] theorem connect_nodes (g : VGraph) (u v : VId) (s : Str) : (g.connect u v s).nodes = g.nodes := by
  unfold VGraph.connect; split <;> rfl

@[simp] theorem connect_vertices (g : VGraph) (u v : VId) (s : Str) : (g.connect u v s).vertices = g.vertices := by
  simp [VGraph.vertices]

@[simp] theorem connect_next (g : VGraph) (u v : VId) (s : Str) : (g.connect u v s).next = g.next := by
  unfold VGraph.connect; split <;> rfl

@[simp] theorem connect_near (g : VGraph) (u v : VId) (s : Str) : (g.connect u v s).near = g.near := by
  unfold VGraph.connect; split <;> rfl

@[simp] theorem addTokenAt_vertices (g : VGraph) (v : VId) (s : Str) (t : Token) :
    (g.addTokenAt v s t).vertices = g.vertices := by
  simp only [VGraph.addTokenAt, VGraph.vertices, List.map_map]
  apply List.map_congr_left
  intro p _
  simp only [Function.comp]
  split <;> rfl

theorem dget_map_nodes (d : Dict VId Vertex) (v : VId) (f : Vertex → Vertex) (w : VId) :
    dget (d.map (fun p => if p.1 = v then (p.1, f p.2) else p)) w
      = if w = v then (dget d w).map f else dget d w := by
  induction d with
  | nil => simp
  | cons p d ih =>
    obtain ⟨a, b⟩ := p
    simp only [List.map_cons]
    by_cases hav : a = v
    · subst hav
      simp only [if_true, dget]
      by_cases haw : a = w
      · subst haw; simp
      · simp only [if_neg haw, ih]
    · simp only [if_neg hav, dget]
      by_cases haw : a = w
      · subst haw; simp [hav]
      · simp only [if_neg haw, ih]

theorem dget_addTokenAt (g : VGraph) (v : VId) (s : Str) (t : Token) (w : VId) :
    dget (g.addTokenAt v s t).nodes w
      = if w = v then (dget g.nodes w).map (fun x => x.addToken s t) else dget g.nodes w :=
  dget_map_nodes g.nodes v (fun x => x.addToken s t) w

@[simp] theorem addTokenAt_pairs (g : VGraph) (v : VId) (s : Str) (t : Token) : (g.addTokenAt v s t).pairs = g.pairs := rfl
@[simp] theorem addTokenAt_next (g : VGraph) (v : VId) (s : Str) (t : Token) : (g.addTokenAt v s t).next = g.next := rfl
@[simp] theorem addTokenAt_near (g : VGraph) (v : VId) (s : Str) (t : Token) : (g.addTokenAt v s t).near = g.near := rfl

/-! ### The new path -/

/-- The path of a new witness: aligned tokens go to their vertex, the others to fresh vertices. -/
def newSegs (al : Dict Token VId) : VId → List Token → List (VId × List Token)
  | _, [] => []
  | n, t :: ts =>
    match dget al t with
    | some v => (v, [t]) :: newSegs al n ts
    | none => (n, [t]) :: newSegs al (n + 1) ts

/-- The number of fresh vertices. -/
def newCount (al : Dict Token VId) (ts : List Token) : Nat := (ts.filter (fun t => (dget al t).isNone)).length

theorem newSegs_snd (al : Dict Token VId) (n : VId) (ts : List Token) :
    (newSegs al n ts).map Prod.snd = ts.map (fun t => [t]) := by
  induction ts generalizing n with
  | nil => rfl
  | cons t ts ih =>
    simp only [newSegs]
    split <;> simp [ih]

theorem newSegs_length (al : Dict Token VId) (n : VId) (ts : List Token) : (newSegs al n ts).length = ts.length := by
  have := congrArg List.length (newSegs_snd al n ts)
  simpa using this

/-- What an element of the new path looks like. -/
theorem newSegs_mem {al : Dict Token VId} {n : VId} {ts : List Token} {v : VId} {l : List Token}
    (h : (v, l) ∈ newSegs al n ts) :
    ∃ t ∈ ts, l = [t] ∧ (dget al t = some v ∨ (dget al t = none ∧ n ≤ v ∧ v < n + newCount al ts)) := by
  induction ts generalizing n with
  | nil => simp [newSegs] at h
  | cons t ts ih =>
    simp only [newSegs] at h
    split at h
    · rename_i w hw
      rcases List.mem_cons.mp h with h | h
      · simp only [Prod.mk.injEq] at h
        obtain ⟨rfl, rfl⟩ := h
        exact ⟨t, by simp, rfl, Or.inl hw⟩
      · obtain ⟨t', ht', hl, hc⟩ := ih h
        refine ⟨t', by simp [ht'], hl, ?_⟩
        have e : newCount al (t :: ts) = newCount al ts := by simp [newCount, hw]
        rw [e]; exact hc
    · rename_i hw
      have e : newCount al (t :: ts) = newCount al ts + 1 := by simp [newCount, hw]
      rcases List.mem_cons.mp h with h | h
      · simp only [Prod.mk.injEq] at h
        obtain ⟨rfl, rfl⟩ := h
        exact ⟨t, by simp, rfl, Or.inr ⟨hw, Nat.le_refl _, by omega⟩⟩
      · obtain ⟨t', ht', hl, hc⟩ := ih h
        refine ⟨t', by simp [ht'], hl, ?_⟩
        rcases hc with hc | ⟨h1, h2, h3⟩
        · exact Or.inl hc
        · exact Or.inr ⟨h1, by omega, by omega⟩

/-- Every token is on the new path. -/
theorem newSegs_of_mem {al : Dict Token VId} {n : VId} {ts : List Token} {t : Token} (h : t ∈ ts) :
    ∃ v, (v, [t]) ∈ newSegs al n ts := by
  have h2 : [t] ∈ (newSegs al n ts).map Prod.snd := by
    rw [newSegs_snd]; exact List.mem_map.mpr ⟨t, h, rfl⟩
  obtain ⟨⟨v, l⟩, hv, rfl⟩ := List.mem_map.mp h2
  exact ⟨v, hv⟩

/-- Every fresh vertex is on the new path. -/
theorem newSegs_fresh {al : Dict Token VId} {n : VId} {ts : List Token} {v : VId} (h1 : n ≤ v)
    (h2 : v < n + newCount al ts) : ∃ t ∈ ts, dget al t = none ∧ (v, [t]) ∈ newSegs al n ts := by
  induction ts generalizing n with
  | nil => simp [newCount] at h2; omega
  | cons t ts ih =>
    simp only [newSegs]
    split
    · rename_i w hw
      have e : newCount al (t :: ts) = newCount al ts := by simp [newCount, hw]
      obtain ⟨t', h3, h4, h5⟩ := ih h1 (by omega)
      exact ⟨t', by simp [h3], h4, by simp [h5]⟩
    · rename_i hw
      have e : newCount al (t :: ts) = newCount al ts + 1 := by simp [newCount, hw]
      by_cases hv : v = n
      · subst hv; exact ⟨t, by simp, hw, by simp⟩
      · obtain ⟨t', h3, h4, h5⟩ := ih (n := n + 1) (by omega) (by omega)
        exact ⟨t', by simp [h3], h4, by simp [h5]⟩

/-- The vertices of the new path are distinct, if the aligned ones are. -/
theorem newSegs_nodup {al : Dict Token VId} {n : VId} {ts : List Token}
    (hlt : ∀ t ∈ ts, ∀ v, dget al t = some v → v < n)
    (hd : ts.Pairwise (fun t t' => ∀ v v', dget al t = some v → dget al t' = some v' → v ≠ v')) :
    ((newSegs al n ts).map Prod.fst).Nodup := by
  induction ts generalizing n with
  | nil => simp [newSegs]
  | cons t ts ih =>
    have hd' := List.pairwise_cons.mp hd
    simp only [newSegs]
    split
    · rename_i v hv
      simp only [List.map_cons, List.nodup_cons]
      refine ⟨?_, ih (fun t' ht' => hlt t' (by simp [ht'])) hd'.2⟩
      intro hmem
      obtain ⟨⟨w, l⟩, hw, he⟩ := List.mem_map.mp hmem
      simp only at he
      subst he
      obtain ⟨t', ht', _, hc⟩ := newSegs_mem hw
      rcases hc with hc | ⟨_, hc, _⟩
      · exact hd'.1 t' ht' _ _ hv hc rfl
      · have := hlt t (by simp) _ hv; omega
    · rename_i hv
      simp only [List.map_cons, List.nodup_cons]
      refine ⟨?_, ih (fun t' ht' v' hv' => Nat.lt_succ_of_lt (hlt t' (by simp [ht']) v' hv')) hd'.2⟩
      intro hmem
      obtain ⟨⟨w, l⟩, hw, he⟩ := List.mem_map.mp hmem
      simp only at he
      subst he
      obtain ⟨t', ht', _, hc⟩ := newSegs_mem hw
      rcases hc with hc | ⟨_, hc, _⟩
      · have := hlt t' (by simp [ht']) _ hc; omega
      · omega

/-! ### The loop -/

/-- What the loop of `merge` has done to the state. -/
structure MergeOut (σ : Str) (al : Dict Token VId) (ts : List Token) (s s' : MergeSt) : Prop where
  next : s'.g.next = s.g.next + newCount al ts
  vertices : s'.g.vertices = s.g.vertices ++ List.range' s.g.next (newCount al ts)
  near : s'.g.near = s.g.near
  pairs : ∀ u v, (u, v) ∈ s'.g.pairs ↔
    (u, v) ∈ s.g.pairs ∨ Consec (s.last :: (newSegs al s.g.next ts).map Prod.fst) u v
  pairs_nd : s.g.pairs.Nodup → s'.g.pairs.Nodup
  last : (s.last :: (newSegs al s.g.next ts).map Prod.fst).getLast? = some s'.last
  same : ∀ v, v ∉ (newSegs al s.g.next ts).map Prod.fst → dget s'.g.nodes v = dget s.g.nodes v
  aligned : ∀ v t, (v, [t]) ∈ newSegs al s.g.next ts → dget al t = some v →
    dget s'.g.nodes v = (dget s.g.nodes v).map (fun x => x.addToken σ t)
  new : ∀ v t, (v, [t]) ∈ newSegs al s.g.next ts → dget al t = none →
    dget s'.g.nodes v = some (mkVertex (some t) (some σ) none)
  t2v_sound : ∀ t v, (t, v) ∈ s'.t2v → (t, v) ∈ s.t2v ∨ (t ∈ ts ∧ dget al t = none ∧ (v, [t]) ∈ newSegs al s.g.next ts)
  t2v_keys : ∀ t, t ∈ s'.t2v.map Prod.fst ↔ t ∈ s.t2v.map Prod.fst ∨ (t ∈ ts ∧ dget al t = none)

theorem mem_dset {K V : Type} [DecidableEq K] {d : Dict K V} {k : K} {v : V} {p : K × V} (h : p ∈ dset d k v) :
    p ∈ d ∨ p = (k, v) := by
  induction d with
  | nil => simp [dset] at h; exact Or.inr h
  | cons q d ih =>
    obtain ⟨a, b⟩ := q
    simp only [dset] at h
    split at h
    · rename_i hak
      rcases List.mem_cons.mp h with h | h
      · right; rw [h, hak]
      · left; simp [h]
    · rcases List.mem_cons.mp h with h | h
      · left; simp [h]
      · rcases ih h with h | h
        · left; simp [h]
        · right; exact h

theorem mergeLoop_out (σ : Str) (al : Dict Token VId) (ts : List Token) : ∀ s : MergeSt,
    (∀ v ∈ s.g.vertices, v < s.g.next) → (∀ t ∈ ts, ∀ v, dget al t = some v → v ∈ s.g.vertices) →
    ((newSegs al s.g.next ts).map Prod.fst).Nodup → MergeOut σ al ts s (ts.foldl (mergeStep σ al) s) := by
  induction ts with
  | nil =>
    intro s _ _ _
    refine ⟨?_, ?_, rfl, ?_, id, ?_, ?_, ?_, ?_, ?_, ?_⟩ <;> simp [newSegs, newCount, consec_single]
  | cons t ts ih =>
    intro s hfresh hal hnd
    simp only [List.foldl_cons]
    cases hw : dget al t with
    | some w =>
      have hwv : w ∈ s.g.vertices := hal t (by simp) w hw
      have hstep : mergeStep σ al s t =
          { g := (s.g.addTokenAt w σ t).connect s.last w σ, t2v := s.t2v, last := w } := by
        simp only [mergeStep, hw]
      have hns : newSegs al s.g.next (t :: ts) = (w, [t]) :: newSegs al s.g.next ts := by
        simp only [newSegs, hw]
      have hnc : newCount al (t :: ts) = newCount al ts := by simp [newCount, hw]
      rw [hns] at hnd
      simp only [List.map_cons, List.nodup_cons] at hnd
      rw [hstep]
      have h := ih { g := (s.g.addTokenAt w σ t).connect s.last w σ, t2v := s.t2v, last := w }
        (by simpa using hfresh) (by simpa using fun t' ht' => hal t' (by simp [ht'])) (by simpa using hnd.2)
      have hn : ((s.g.addTokenAt w σ t).connect s.last w σ).next = s.g.next := by simp
      obtain ⟨h1, h2, h3, h4, h5, h6, h7, h8, h9, h10, h11⟩ := h
      simp only [connect_next, addTokenAt_next, connect_vertices, addTokenAt_vertices, connect_near, addTokenAt_near,
        connect_nodes] at h1 h2 h3 h4 h5 h6 h7 h8 h9 h10 h11
      refine ⟨by rw [h1, hnc], by rw [h2, hnc], h3, ?_, ?_, ?_, ?_, ?_, ?_, ?_, ?_⟩
      · intro u v
        rw [h4, mem_pairs_connect, hns]
        simp only [List.map_cons, consec_cons (a := s.last), List.head?_cons, Option.some.injEq, addTokenAt_pairs,
          Prod.mk.injEq, eq_comm, or_assoc]
      · intro hp
        exact h5 (nodup_pairs_connect hp)
      · rw [hns]; simpa using h6
      · intro v hv
        rw [hns] at hv
        simp only [List.map_cons, List.mem_cons, not_or] at hv
        rw [h7 v hv.2, dget_addTokenAt, if_neg hv.1]
      · intro v t' hmem hal'
        rw [hns] at hmem
        rcases List.mem_cons.mp hmem with hm | hm
        · simp only [Prod.mk.injEq, List.cons.injEq, and_true] at hm
          obtain ⟨rfl, rfl⟩ := hm
          rw [h7 _ hnd.1, dget_addTokenAt, if_pos rfl]
        · rw [h8 v t' hm hal', dget_addTokenAt, if_neg]
          rintro rfl
          exact hnd.1 (List.mem_map.mpr ⟨_, hm, rfl⟩)
      · intro v t' hmem hal'
        rw [hns] at hmem
        rcases List.mem_cons.mp hmem with hm | hm
        · simp only [Prod.mk.injEq, List.cons.injEq, and_true] at hm
          obtain ⟨rfl, rfl⟩ := hm
          rw [hal'] at hw; cases hw
        · exact h9 v t' hm hal'
      · intro t' v hm
        rcases h10 t' v hm with hm | ⟨a, b, c⟩
        · exact Or.inl hm
        · refine Or.inr ⟨by simp [a], b, ?_⟩
          rw [hns]; simp [c]
      · intro t'
        rw [h11]
        constructor
        · rintro (hm | ⟨a, b⟩)
          · exact Or.inl hm
          · exact Or.inr ⟨by simp [a], b⟩
        · rintro (hm | ⟨a, b⟩)
          · exact Or.inl hm
          · rcases List.mem_cons.mp a with rfl | a
            · rw [b] at hw; cases hw
            · exact Or.inr ⟨a, b⟩
    | none =>
      have hstep : mergeStep σ al s t =
          { g := (s.g.addVertex t σ).1.connect s.last s.g.next σ, t2v := dset s.t2v t s.g.next, last := s.g.next } := by
        simp only [mergeStep, hw]; rfl
      have hns : newSegs al s.g.next (t :: ts) = (s.g.next, [t]) :: newSegs al (s.g.next + 1) ts := by
        simp only [newSegs, hw]
      have hnc : newCount al (t :: ts) = newCount al ts + 1 := by simp [newCount, hw]
      rw [hns] at hnd
      simp only [List.map_cons, List.nodup_cons] at hnd
      have hv1 : (s.g.addVertex t σ).1.vertices = s.g.vertices ++ [s.g.next] := by
        simp [VGraph.addVertex, VGraph.vertices]
      have hn1 : (s.g.addVertex t σ).1.next = s.g.next + 1 := rfl
      have hp1 : (s.g.addVertex t σ).1.pairs = s.g.pairs := rfl
      have hnr : (s.g.addVertex t σ).1.near = s.g.near := rfl
      have hd1 : ∀ v, dget (s.g.addVertex t σ).1.nodes v =
          if v = s.g.next then some (mkVertex (some t) (some σ) none) else dget s.g.nodes v := by
        intro v
        simp only [VGraph.addVertex, dget_append]
        by_cases hv : v = s.g.next
        · subst hv
          have : dget s.g.nodes s.g.next = none := by
            rw [dget_eq_none_iff]
            intro hm
            exact absurd (hfresh _ hm) (by omega)
          simp [this, dget]
        · simp [dget, Ne.symm hv, hv]
      rw [hstep]
      have h := ih { g := (s.g.addVertex t σ).1.connect s.last s.g.next σ, t2v := dset s.t2v t s.g.next, last := s.g.next }
        (by
          simp only [connect_vertices, hv1, connect_next, hn1]
          intro v hv
          rcases List.mem_append.mp hv with hv | hv
          · have := hfresh v hv; omega
          · simp at hv; omega)
        (by
          simp only [connect_vertices, hv1]
          intro t' ht' v hv
          exact List.mem_append_left _ (hal t' (by simp [ht']) v hv))
        (by simpa [hn1] using hnd.2)
      obtain ⟨h1, h2, h3, h4, h5, h6, h7, h8, h9, h10, h11⟩ := h
      simp only [connect_next, connect_vertices, connect_near, connect_nodes, hv1, hn1, hnr] at h1 h2 h3 h4 h5 h6 h7 h8 h9 h10 h11
      refine ⟨by rw [h1, hnc]; omega, ?_, h3, ?_, ?_, ?_, ?_, ?_, ?_, ?_, ?_⟩
      · rw [h2, hnc, List.range'_succ]; simp
      · intro u v
        rw [h4, mem_pairs_connect, hns, hp1]
        simp only [List.map_cons, consec_cons (a := s.last), List.head?_cons, Option.some.injEq, Prod.mk.injEq, eq_comm, or_assoc]
      · intro hp
        exact h5 (nodup_pairs_connect (by rw [hp1]; exact hp))
      · rw [hns]; simpa using h6
      · intro v hv
        rw [hns] at hv
        simp only [List.map_cons, List.mem_cons, not_or] at hv
        rw [h7 v hv.2, hd1, if_neg hv.1]
      · intro v t' hmem hal'
        rw [hns] at hmem
        rcases List.mem_cons.mp hmem with hm | hm
        · simp only [Prod.mk.injEq, List.cons.injEq, and_true] at hm
          obtain ⟨rfl, rfl⟩ := hm
          rw [hal'] at hw; cases hw
        · rw [h8 v t' hm hal', hd1, if_neg]
          rintro rfl
          exact hnd.1 (List.mem_map.mpr ⟨_, hm, rfl⟩)
      · intro v t' hmem hal'
        rw [hns] at hmem
        rcases List.mem_cons.mp hmem with hm | hm
        · simp only [Prod.mk.injEq, List.cons.injEq, and_true] at hm
          obtain ⟨rfl, rfl⟩ := hm
          rw [h7 _ hnd.1, hd1, if_pos rfl]
        · exact h9 v t' hm hal'
      · intro t' v hm
        rcases h10 t' v hm with hm | ⟨a, b, c⟩
        · rcases mem_dset hm with hm | hm
          · exact Or.inl hm
          · simp only [Prod.mk.injEq] at hm
            obtain ⟨rfl, rfl⟩ := hm
            refine Or.inr ⟨by simp, hw, ?_⟩
            rw [hns]; simp
        · refine Or.inr ⟨by simp [a], b, ?_⟩
          rw [hns]; simp [c]
      · intro t'
        rw [h11, mem_keys_dset]
        constructor
        · rintro ((rfl | hm) | ⟨a, b⟩)
          · exact Or.inr ⟨by simp, hw⟩
          · exact Or.inl hm
          · exact Or.inr ⟨by simp [a], b⟩
        · rintro (hm | ⟨a, b⟩)
          · exact Or.inl (Or.inr hm)
          · rcases List.mem_cons.mp a with rfl | a
            · exact Or.inl (Or.inl rfl)
            · exact Or.inr ⟨a, b⟩

/-! ### The edge labels -/

/-- `connect` on the edges alone. -/
def connE (es : List Edge) (u v : VId) (σ : Str) : List Edge :=
  if es.any (fun e => e.src = u ∧ e.tgt = v) then
    es.map (fun e => if e.src = u ∧ e.tgt = v then { e with label := e.label ++ (S ", " ++ σ) } else e)
  else es ++ [⟨u, v, σ⟩]

theorem connect_edges (g : VGraph) (u v : VId) (σ : Str) : (g.connect u v σ).edges = connE g.edges u v σ := by
  unfold VGraph.connect connE VGraph.hasEdge
  split <;> rfl

/-- `connect` along a path. -/
def connPath (σ : Str) : List Edge → VId → List VId → List Edge
  | es, _, [] => es
  | es, u, v :: l => connPath σ (connE es u v σ) v l

theorem connPath_snoc (σ : Str) (l : List VId) : ∀ (es : List Edge) (u w x : VId), (u :: l).getLast? = some x →
    connPath σ es u (l ++ [w]) = connE (connPath σ es u l) x w σ := by
  induction l with
  | nil => intro es u w x h; simp at h; subst h; rfl
  | cons v l ih =>
    intro es u w x h
    rw [List.cons_append, connPath, connPath, ih _ _ _ x (by simpa using h)]

theorem mergeLoop_edges (σ : Str) (al : Dict Token VId) (ts : List Token) : ∀ s : MergeSt,
    (ts.foldl (mergeStep σ al) s).g.edges = connPath σ s.g.edges s.last ((newSegs al s.g.next ts).map Prod.fst) := by
  induction ts with
  | nil => intro s; rfl
  | cons t ts ih =>
    intro s
    rw [List.foldl_cons, ih]
    cases hw : dget al t with
    | some w =>
      have hstep : mergeStep σ al s t =
          { g := (s.g.addTokenAt w σ t).connect s.last w σ, t2v := s.t2v, last := w } := by
        simp only [mergeStep, hw]
      rw [hstep]
      simp only [connect_edges, connect_next, newSegs, hw, List.map_cons, connPath]
      rfl
    | none =>
      have hstep : mergeStep σ al s t =
          { g := (s.g.addVertex t σ).1.connect s.last s.g.next σ, t2v := dset s.t2v t s.g.next, last := s.g.next } := by
        simp only [mergeStep, hw]; rfl
      rw [hstep]
      simp only [connect_edges, connect_next, newSegs, hw, List.map_cons, connPath]
      rfl

theorem mem_connE {es : List Edge} {u v : VId} {σ : Str} {e' : Edge} (h : e' ∈ connE es u v σ) :
    (¬ (e'.src = u ∧ e'.tgt = v) ∧ e' ∈ es) ∨ ((e'.src = u ∧ e'.tgt = v) ∧
      ((∃ e ∈ es, e.src = u ∧ e.tgt = v ∧ e'.label = e.label ++ (S ", " ++ σ)) ∨
       ((u, v) ∉ es.map (fun e => (e.src, e.tgt)) ∧ e'.label = σ))) := by
  unfold connE at h
  split at h
  · obtain ⟨e, he, rfl⟩ := List.mem_map.mp h
    by_cases hc : e.src = u ∧ e.tgt = v
    · rw [if_pos hc]
      exact Or.inr ⟨hc, Or.inl ⟨e, he, hc.1, hc.2, rfl⟩⟩
    · rw [if_neg hc]
      exact Or.inl ⟨hc, he⟩
  · rename_i hn
    have hn' : (u, v) ∉ es.map (fun e => (e.src, e.tgt)) := by
      intro hm
      obtain ⟨e, he, hc⟩ := List.mem_map.mp hm
      apply hn
      rw [List.any_eq_true]
      simp only [Prod.mk.injEq] at hc
      exact ⟨e, he, by simpa using hc⟩
    rcases List.mem_append.mp h with h | h
    · left
      refine ⟨?_, h⟩
      rintro ⟨h1, h2⟩
      exact hn' (List.mem_map.mpr ⟨e', h, by rw [h1, h2]⟩)
    · simp only [List.mem_singleton] at h
      subst h
      exact Or.inr ⟨⟨rfl, rfl⟩, Or.inr ⟨hn', rfl⟩⟩

theorem pairs_connE {es : List Edge} {u v : VId} {σ : Str} {p : VId × VId}
    (h : p ∈ es.map (fun e => (e.src, e.tgt))) : p ∈ (connE es u v σ).map (fun e => (e.src, e.tgt)) := by
  obtain ⟨e, he, rfl⟩ := List.mem_map.mp h
  unfold connE
  split
  · rw [List.map_map]
    refine List.mem_map.mpr ⟨e, he, ?_⟩
    simp only [Function.comp]
    split <;> rfl
  · exact List.mem_map.mpr ⟨e, List.mem_append_left _ he, rfl⟩

theorem mem_connPath (σ : Str) (l : List VId) : ∀ (es : List Edge) (u : VId), (u :: l).Nodup →
    ∀ e' ∈ connPath σ es u l, (¬ Consec (u :: l) e'.src e'.tgt ∧ e' ∈ es) ∨ (Consec (u :: l) e'.src e'.tgt ∧
      ((∃ e ∈ es, e.src = e'.src ∧ e.tgt = e'.tgt ∧ e'.label = e.label ++ (S ", " ++ σ)) ∨
       ((e'.src, e'.tgt) ∉ es.map (fun e => (e.src, e.tgt)) ∧ e'.label = σ))) := by
  induction l with
  | nil => intro es u _ e' he'; exact Or.inl ⟨consec_single, he'⟩
  | cons v l ih =>
    intro es u hnd e' he'
    rw [List.nodup_cons] at hnd
    rcases ih (connE es u v σ) v hnd.2 e' he' with ⟨h1, h2⟩ | ⟨h1, h2⟩
    · rcases mem_connE h2 with ⟨h3, h4⟩ | ⟨h3, h4⟩
      · left
        refine ⟨?_, h4⟩
        rw [consec_cons, List.head?_cons]
        rintro (⟨ha, hb⟩ | h)
        · exact h3 ⟨ha.symm, (Option.some.inj hb).symm⟩
        · exact h1 h
      · right
        refine ⟨consec_cons.mpr (Or.inl ⟨h3.1.symm, by simp [h3.2]⟩), ?_⟩
        rw [h3.1, h3.2]
        exact h4
    · right
      have hne : e'.src ≠ u := by
        intro h
        exact hnd.1 (h ▸ h1.mem_left)
      refine ⟨consec_cons.mpr (Or.inr h1), ?_⟩
      rcases h2 with ⟨e, he, h3, h4, h5⟩ | ⟨h3, h4⟩
      · left
        rcases mem_connE he with ⟨_, h6⟩ | ⟨h6, _⟩
        · exact ⟨e, h6, h3, h4, h5⟩
        · exact absurd (h3 ▸ h6.1) hne
      · right
        exact ⟨fun h => h3 (pairs_connE h), h4⟩

theorem intercalate_snoc (sep : Str) (l : List Str) (x : Str) :
    List.intercalate sep (l ++ [x]) = if l = [] then x else List.intercalate sep l ++ (sep ++ x) := by
  induction l with
  | nil => simp [List.intercalate]
  | cons a l ih =>
    cases l with
    | nil => simp [List.intercalate]
    | cons b l =>
      rw [if_neg (by simp)] at ih ⊢
      have h1 : ∀ m : List Str, List.intercalate sep (a :: b :: m) = a ++ (sep ++ List.intercalate sep (b :: m)) := by
        intro m; simp [List.intercalate]
      rw [List.cons_append, List.cons_append, h1, h1, ← List.cons_append, ih]
      simp

theorem labelOf_snoc (ps : List WPath) (p : WPath) (u v : VId) : labelOf (ps ++ [p]) u v =
    open Classical in if Consec p.path u v then
      (if (∃ q ∈ ps, Consec q.path u v) then labelOf ps u v ++ (S ", " ++ p.sigil) else p.sigil) else labelOf ps u v := by
  classical
  unfold labelOf
  rw [List.filter_append]
  by_cases h : Consec p.path u v
  · rw [if_pos h, List.filter_cons_of_pos (by simpa using h), List.filter_nil, List.map_append, List.map_cons, List.map_nil,
      intercalate_snoc]
    by_cases hq : ∃ q ∈ ps, Consec q.path u v
    · rw [if_pos hq, if_neg]
      obtain ⟨q, hq, hc⟩ := hq
      intro h0
      rw [List.map_eq_nil_iff, List.filter_eq_nil_iff] at h0
      exact h0 q hq (by simpa using hc)
    · rw [if_neg hq, if_pos]
      rw [List.map_eq_nil_iff, List.filter_eq_nil_iff]
      intro q hq' hc
      exact hq ⟨q, hq', by simpa using hc⟩
  · rw [if_neg h, List.filter_cons_of_neg (by simpa using h), List.filter_nil, List.append_nil]

end CollateX
