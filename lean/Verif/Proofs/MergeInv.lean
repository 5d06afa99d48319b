import Verif.Proofs.Merge
/-
`merge` keeps the graph invariant.
-/

namespace CollateX
open Spec

/-! ### A numbering for the graph with one more path -/

/-- Largest old number up to index `i` of the path. -/
def upTo (h' : VId → Nat) (full : List VId) (i : Nat) : Nat := ((full.take (i + 1)).map h').foldr max 0

theorem upTo_mono (h' : VId → Nat) (full : List VId) (i j : Nat) (hij : i ≤ j) : upTo h' full i ≤ upTo h' full j := by
  apply foldr_max_le
  intro x hx
  obtain ⟨w, hw, rfl⟩ := List.mem_map.mp hx
  apply le_foldr_max
  exact List.mem_map.mpr ⟨w, (List.take_subset_take_left full (by omega)) hw, rfl⟩

/-- Adding to a layered graph a path on which the old vertices do not go down keeps it layered. -/
theorem layered_add_path {es : List (VId × VId)} {h : VId → Nat} (hh : ∀ p ∈ es, h p.1 < h p.2) (n : Nat)
    (hes : ∀ p ∈ es, p.1 < n ∧ p.2 < n) (full : List VId) (nd : full.Nodup)
    (mono : full.Pairwise (fun a b => a < n → b < n → h a ≤ h b)) (es' : List (VId × VId))
    (hes' : ∀ p ∈ es', p ∈ es ∨ Consec full p.1 p.2) : Layered es' := by
  let h' : VId → Nat := fun w => if w < n then h w else 0
  let hb : VId → Nat := fun v => if v ∈ full then upTo h' full (full.idxOf v) else h v
  let ix : VId → Nat := fun v => if v ∈ full then full.idxOf v else 0
  have hbo : ∀ v, v < n → hb v = h v := by
    intro v hv
    by_cases hvf : v ∈ full
    · simp only [hb, if_pos hvf]
      have hi : full.idxOf v < full.length := List.idxOf_lt_length_iff.mpr hvf
      have hg : full[full.idxOf v] = v := List.getElem_idxOf hi
      apply Nat.le_antisymm
      · apply foldr_max_le
        intro x hx
        obtain ⟨w, hw, rfl⟩ := List.mem_map.mp hx
        simp only [h']
        split
        · rename_i hwn
          obtain ⟨j, hj, hjw⟩ := List.mem_iff_getElem.mp hw
          simp only [List.getElem_take] at hjw
          simp only [List.length_take] at hj
          by_cases hji : j = full.idxOf v
          · subst hji
            rw [hg] at hjw; rw [hjw]
          · have := List.pairwise_iff_getElem.mp mono j (full.idxOf v) (by omega) hi (by omega)
            rw [hjw, hg] at this
            exact this hwn hv
        · exact Nat.zero_le _
      · apply le_foldr_max
        refine List.mem_map.mpr ⟨v, ?_, by simp only [h', if_pos hv]⟩
        rw [List.mem_iff_getElem]
        refine ⟨full.idxOf v, by simp only [List.length_take]; omega, ?_⟩
        simp only [List.getElem_take]
        exact hg
    · simp only [hb, if_neg hvf]
  have hix : ∀ v, ix v < full.length + 1 := by
    intro v
    simp only [ix]
    split
    · rename_i hv
      have := List.idxOf_lt_length_iff.mpr hv
      omega
    · omega
  refine ⟨fun v => hb v * (full.length + 1) + ix v, ?_⟩
  intro p hp
  rcases hes' p hp with hp | hp
  · have h1 := hh p hp
    have h2 := hes p hp
    simp only
    rw [hbo _ h2.1, hbo _ h2.2]
    have h3 := hix p.1
    have h4 : (h p.1 + 1) * (full.length + 1) ≤ h p.2 * (full.length + 1) := Nat.mul_le_mul_right _ h1
    rw [Nat.add_mul] at h4
    omega
  · obtain ⟨i, hi1, hi2⟩ := consec_iff_getElem.mp hp
    obtain ⟨hl1, hg1⟩ := List.getElem?_eq_some_iff.mp hi1
    obtain ⟨hl2, hg2⟩ := List.getElem?_eq_some_iff.mp hi2
    have m1 : p.1 ∈ full := by rw [← hg1]; exact List.getElem_mem _
    have m2 : p.2 ∈ full := by rw [← hg2]; exact List.getElem_mem _
    have e1 : full.idxOf p.1 = i := by rw [← hg1]; exact nd.idxOf_getElem i hl1
    have e2 : full.idxOf p.2 = i + 1 := by rw [← hg2]; exact nd.idxOf_getElem (i + 1) hl2
    simp only [hb, ix, if_pos m1, if_pos m2, e1, e2]
    have := upTo_mono h' full i (i + 1) (by omega)
    have := Nat.mul_le_mul_right (full.length + 1) this
    omega

/-! ### The alignment that `merge` needs -/

/-- An alignment of the tokens `ts` to vertices of `g` that is compatible with the numbering `h`. -/
structure AlignOK (g : VGraph) (h : VId → Nat) (ts : List Token) (al : Dict Token VId) : Prop where
  edges : ∀ p ∈ g.pairs, h p.1 < h p.2
  lo : ∀ v ∈ g.vertices, v ≠ startV → h startV < h v
  hi : ∀ v ∈ g.vertices, v ≠ endV → h v < h endV
  inner : ∀ t ∈ ts, ∀ v, dget al t = some v → v ∈ g.vertices ∧ v ≠ startV ∧ v ≠ endV
  mono : ts.Pairwise (fun t t' => ∀ v v', dget al t = some v → dget al t' = some v' → v ≠ v' ∧ h v ≤ h v')

theorem newSegs_pairwise {al : Dict Token VId} {n : VId} {ts : List Token} {h : VId → Nat} {n0 : Nat} (hn : n0 ≤ n)
    (hm : ts.Pairwise (fun t t' => ∀ v v', dget al t = some v → dget al t' = some v' → v ≠ v' ∧ h v ≤ h v')) :
    ((newSegs al n ts).map Prod.fst).Pairwise (fun a b => a < n0 → b < n0 → h a ≤ h b) := by
  induction ts generalizing n with
  | nil => simp [newSegs]
  | cons t ts ih =>
    have hm' := List.pairwise_cons.mp hm
    simp only [newSegs]
    split
    · rename_i v hv
      simp only [List.map_cons, List.pairwise_cons]
      refine ⟨?_, ih hn hm'.2⟩
      intro b hb _ hbn
      obtain ⟨⟨w, l⟩, hw, rfl⟩ := List.mem_map.mp hb
      obtain ⟨t', ht', _, hc⟩ := newSegs_mem hw
      simp only at hbn ⊢
      rcases hc with hc | ⟨_, hc, _⟩
      · exact (hm'.1 t' ht' _ _ hv hc).2
      · omega
    · simp only [List.map_cons, List.pairwise_cons]
      refine ⟨?_, ih (by omega) hm'.2⟩
      intro b _ h1 _
      omega

theorem mkVertex_tokens (t : Token) (s : Str) (hs : s ≠ []) : (mkVertex (some t) (some s) none).tokens = [(s, [t])] := by
  cases s with
  | nil => exact absurd rfl hs
  | cons c cs => rfl

theorem mkVertex_tokens_nil (t : Token) : (mkVertex (some t) (some []) none).tokens = [] := rfl

@[simp] theorem mkVertex_label (t : Token) (s : Str) : (mkVertex (some t) (some s) none).label = t.str := rfl

@[simp] theorem addToken_label (x : Vertex) (s : Str) (t : Token) : (x.addToken s t).label = x.label := by
  unfold Vertex.addToken; split <;> rfl

theorem addToken_tokens (x : Vertex) (s : Str) (t : Token) :
    (x.addToken s t).tokens = setdefaultAppend x.tokens s t := by
  unfold Vertex.addToken setdefaultAppend
  split <;> rename_i h <;> simp only [h]

/-- `merge` adds the path of the new witness. -/
theorem GInv.merge {g : VGraph} {ps : List WPath} (hg : GInv g ps) {σ : Str} (hσ : σ ∉ ps.map WPath.sigil)
    {ts : List Token} (hts : ts ≠ []) {al : Dict Token VId} {h : VId → Nat} (ha : AlignOK g h ts al) :
    GInv (merge g σ ts al).1 (ps ++ [⟨σ, newSegs al g.next ts⟩]) := by
  have hlt : ∀ t ∈ ts, ∀ v, dget al t = some v → v < g.next := fun t ht v hv => hg.fresh v (ha.inner t ht v hv).1
  have hsnd : ((newSegs al g.next ts).map Prod.fst).Nodup :=
    newSegs_nodup hlt (ha.mono.imp (fun hp v v' h1 h2 => (hp v v' h1 h2).1))
  have hout := mergeLoop_out σ al ts { g := g, t2v := [], last := startV } hg.fresh
    (fun t ht v hv => (ha.inner t ht v hv).1) hsnd
  generalize hs' : ts.foldl (mergeStep σ al) { g := g, t2v := [], last := startV } = s' at hout
  have hm : (CollateX.merge g σ ts al).1 = s'.g.connect s'.last endV σ := by
    simp only [CollateX.merge, hs']
  rw [hm]
  obtain ⟨o1, o2, o3, o4, o5, o6, o7, o8, o9, o10, o11⟩ := hout
  simp only at o1 o2 o3 o4 o5 o6 o7 o8 o9 o10 o11
  have hsn : startV < g.next := hg.fresh _ hg.start_mem
  have hen : endV < g.next := hg.fresh _ hg.end_mem
  -- the vertices of the new path are inner vertices
  have hin : ∀ v ∈ (newSegs al g.next ts).map Prod.fst, v ≠ startV ∧ v ≠ endV ∧ v ∈ s'.g.vertices := by
    intro v hv
    obtain ⟨⟨w, l⟩, hw, rfl⟩ := List.mem_map.mp hv
    obtain ⟨t, ht, _, hc⟩ := newSegs_mem hw
    simp only
    rcases hc with hc | ⟨_, hc, hc2⟩
    · have := ha.inner t ht w hc
      exact ⟨this.2.1, this.2.2, by rw [o2]; simp [this.1]⟩
    · refine ⟨by omega, by omega, ?_⟩
      rw [o2, List.mem_append, List.mem_range'_1]
      exact Or.inr ⟨hc, hc2⟩
  have hpath : (⟨σ, newSegs al g.next ts⟩ : WPath).path
      = (startV :: (newSegs al g.next ts).map Prod.fst) ++ [endV] := rfl
  have hpairs : ∀ u v, (u, v) ∈ (s'.g.connect s'.last endV σ).pairs ↔
      (u, v) ∈ g.pairs ∨ Consec (⟨σ, newSegs al g.next ts⟩ : WPath).path u v := by
    intro u v
    rw [mem_pairs_connect, o4, hpath, consec_append_single, o6, or_assoc]
    simp only [Option.some.injEq, Prod.mk.injEq, eq_comm]
  have hfull_nd : (⟨σ, newSegs al g.next ts⟩ : WPath).path.Nodup := by
    have h1 : startV ≠ endV := by decide
    rw [hpath, List.cons_append, List.nodup_cons, List.nodup_append]
    refine ⟨?_, hsnd, by simp, ?_⟩
    · intro hmem
      rcases List.mem_append.mp hmem with hmem | hmem
      · exact (hin _ hmem).1 rfl
      · simp at hmem; exact h1 hmem
    · intro a ha' b hb hab
      simp at hb; subst hb; subst hab
      exact (hin _ ha').2.1 rfl
  have hdget : ∀ v, dget (s'.g.connect s'.last endV σ).nodes v = dget s'.g.nodes v := by simp
  have htok : ∀ v x', dget s'.g.nodes v = some x' →
      (v ∉ (newSegs al g.next ts).map Prod.fst ∧ dget g.nodes v = some x') ∨
      (∃ t x, (v, [t]) ∈ newSegs al g.next ts ∧ dget al t = some v ∧ dget g.nodes v = some x ∧ x' = x.addToken σ t) ∨
      (∃ t, (v, [t]) ∈ newSegs al g.next ts ∧ dget g.nodes v = none ∧ x' = mkVertex (some t) (some σ) none) := by
    intro v x' hx
    by_cases hv : v ∈ (newSegs al g.next ts).map Prod.fst
    · right
      obtain ⟨⟨w, l⟩, hw, rfl⟩ := List.mem_map.mp hv
      obtain ⟨t, ht, rfl, hc⟩ := newSegs_mem hw
      simp only at hx ⊢
      rcases hc with hc | ⟨hc, hge, _⟩
      · left
        rw [o8 w t hw hc] at hx
        obtain ⟨x, hx1, hx2⟩ := Option.map_eq_some_iff.mp hx
        exact ⟨t, x, hw, hc, hx1, hx2.symm⟩
      · right
        rw [o9 w t hw hc] at hx
        refine ⟨t, hw, ?_, (Option.some.inj hx).symm⟩
        rw [dget_eq_none_iff]
        intro hmem
        have := hg.fresh w hmem
        omega
    · left
      exact ⟨hv, by rw [← o7 v hv]; exact hx⟩
  -- the segment of a vertex on the new path
  have hseg_unique : ∀ v l l', (v, l) ∈ newSegs al g.next ts → (v, l') ∈ newSegs al g.next ts → l = l' := by
    intro v l l' h1 h2
    have e1 := dget_of_mem (d := newSegs al g.next ts) hsnd h1
    have e2 := dget_of_mem (d := newSegs al g.next ts) hsnd h2
    rw [e1] at e2; exact Option.some.inj e2
  have hnoσ : ∀ v x, dget g.nodes v = some x → dget x.tokens σ = none := by
    intro v x hx
    cases hd : dget x.tokens σ with
    | none => rfl
    | some ts' =>
      exfalso
      apply hσ
      by_cases hσe : σ = []
      · rw [hσe] at hd
        obtain ⟨_, p, hp, hps, _⟩ := hg.tok0 v x hx ts' hd
        exact List.mem_map.mpr ⟨p, hp, by rw [hps, hσe]⟩
      · obtain ⟨p, hp, hps, _⟩ := (hg.tok v x hx σ hσe ts').mp hd
        exact List.mem_map.mpr ⟨p, hp, hps⟩
  constructor
  case nd =>
    simp only [connect_vertices, o2]
    rw [List.nodup_append]
    refine ⟨hg.nd, List.nodup_range' (step := 1), ?_⟩
    intro a ha' b hb hab
    subst hab
    rw [List.mem_range'_1] at hb
    have := hg.fresh a ha'
    omega
  case hstart =>
    obtain ⟨l, hl⟩ := hg.hstart
    refine ⟨l, ?_⟩
    rw [hdget, o7, hl]
    intro hmem
    exact (hin _ hmem).1 rfl
  case hend =>
    obtain ⟨l, hl⟩ := hg.hend
    refine ⟨l, ?_⟩
    rw [hdget, o7, hl]
    intro hmem
    exact (hin _ hmem).2.1 rfl
  case fresh =>
    intro v hv
    simp only [connect_vertices, o2, List.mem_append, List.mem_range'_1] at hv
    simp only [connect_next, o1]
    rcases hv with hv | hv
    · have := hg.fresh v hv; omega
    · exact hv.2
  case sig_nd =>
    rw [List.map_append, List.nodup_append]
    refine ⟨hg.sig_nd, by simp, ?_⟩
    intro a ha' b hb hab
    simp at hb
    subst hb; subst hab
    exact hσ ha'
  case segs_ne =>
    intro p hp
    rcases List.mem_append.mp hp with hp | hp
    · exact hg.segs_ne p hp
    · simp at hp; subst hp
      intro h0
      simp only at h0
      have := newSegs_length al g.next ts
      rw [h0] at this
      exact hts (List.length_eq_zero_iff.mp this.symm)
  case segs_in =>
    intro p hp q hq
    simp only [connect_vertices]
    rcases List.mem_append.mp hp with hp | hp
    · have := hg.segs_in p hp q hq
      exact ⟨by rw [o2]; simp [this.1], this.2⟩
    · simp at hp; subst hp
      obtain ⟨v, l⟩ := q
      have h1 := hin v (List.mem_map.mpr ⟨_, hq, rfl⟩)
      obtain ⟨t, _, hl, _⟩ := newSegs_mem hq
      exact ⟨h1.2.2, h1.1, h1.2.1, by simp [hl]⟩
  case cover =>
    intro v hv h1 h2
    simp only [connect_vertices, o2, List.mem_append, List.mem_range'_1] at hv
    rcases hv with hv | hv
    · obtain ⟨p, hp, hvp⟩ := hg.cover v hv h1 h2
      exact ⟨p, by simp [hp], hvp⟩
    · obtain ⟨t, _, _, hm⟩ := newSegs_fresh hv.1 hv.2
      exact ⟨⟨σ, newSegs al g.next ts⟩, by simp, List.mem_map.mpr ⟨_, hm, rfl⟩⟩
  case edges_iff =>
    intro u v
    rw [hpairs, hg.edges_iff]
    constructor
    · rintro (⟨p, hp, hc⟩ | hc)
      · exact ⟨p, by simp [hp], hc⟩
      · exact ⟨_, by simp, hc⟩
    · rintro ⟨p, hp, hc⟩
      rcases List.mem_append.mp hp with hp | hp
      · exact Or.inl ⟨p, hp, hc⟩
      · simp at hp; subst hp; exact Or.inr hc
  case edges_nd => exact nodup_pairs_connect (o5 hg.edges_nd)
  case tok =>
    intro v x' hx s hs ts'
    rw [hdget] at hx
    rcases htok v x' hx with ⟨hv, hx1⟩ | ⟨t, x, hmem, _, hx1, rfl⟩ | ⟨t, hmem, hx1, rfl⟩
    · rw [hg.tok v x' hx1 s hs ts']
      constructor
      · rintro ⟨p, hp, hc⟩
        exact ⟨p, by simp [hp], hc⟩
      · rintro ⟨p, hp, hps, hc⟩
        rcases List.mem_append.mp hp with hp | hp
        · exact ⟨p, hp, hps, hc⟩
        · simp at hp; subst hp
          exact absurd (List.mem_map.mpr ⟨_, hc, rfl⟩) hv
    · rw [addToken_tokens, dget_setdefaultAppend, hnoσ v x hx1]
      by_cases hσs : σ = s
      · subst hσs
        simp only [if_true, Option.getD_none, List.nil_append, Option.some.injEq]
        constructor
        · rintro rfl
          exact ⟨⟨σ, newSegs al g.next ts⟩, by simp, rfl, hmem⟩
        · rintro ⟨p, hp, hps, hc⟩
          rcases List.mem_append.mp hp with hp | hp
          · exact absurd (List.mem_map.mpr ⟨p, hp, hps⟩) hσ
          · simp at hp; subst hp
            exact hseg_unique v _ _ hmem hc
      · rw [if_neg hσs, hg.tok v x hx1 s hs ts']
        constructor
        · rintro ⟨p, hp, hc⟩
          exact ⟨p, by simp [hp], hc⟩
        · rintro ⟨p, hp, hps, hc⟩
          rcases List.mem_append.mp hp with hp | hp
          · exact ⟨p, hp, hps, hc⟩
          · simp at hp; subst hp
            exact absurd hps hσs
    · have hnew : v ∉ g.vertices := by
        intro hm2
        obtain ⟨y, hy⟩ := exists_dget_of_mem_keys hm2
        rw [hx1] at hy; cases hy
      have hnoold : ∀ p ∈ ps, ∀ l, (v, l) ∈ p.segs → False := by
        intro p hp l hl
        exact hnew (hg.segs_in p hp _ hl).1
      by_cases hσe : σ = []
      · subst hσe
        simp only [mkVertex_tokens_nil, dget_nil]
        constructor
        · intro h0; cases h0
        · rintro ⟨p, hp, hps, hc⟩
          rcases List.mem_append.mp hp with hp | hp
          · exact (hnoold p hp _ hc).elim
          · simp at hp; subst hp; exact absurd hps.symm hs
      · rw [mkVertex_tokens t σ hσe]
        simp only [dget]
        by_cases hσs : σ = s
        · subst hσs
          simp only [if_true, Option.some.injEq]
          constructor
          · rintro rfl
            exact ⟨⟨σ, newSegs al g.next ts⟩, by simp, rfl, hmem⟩
          · rintro ⟨p, hp, hps, hc⟩
            rcases List.mem_append.mp hp with hp | hp
            · exact (hnoold p hp _ hc).elim
            · simp at hp; subst hp
              exact hseg_unique v _ _ hmem hc
        · rw [if_neg hσs]
          constructor
          · intro h0; cases h0
          · rintro ⟨p, hp, hps, hc⟩
            rcases List.mem_append.mp hp with hp | hp
            · exact (hnoold p hp _ hc).elim
            · simp at hp; subst hp; exact absurd hps hσs
  case tok0 =>
    intro v x' hx ts' hts'
    rw [hdget] at hx
    rcases htok v x' hx with ⟨hv, hx1⟩ | ⟨t, x, hmem, _, hx1, rfl⟩ | ⟨t, hmem, hx1, rfl⟩
    · obtain ⟨h1, p, hp, h2⟩ := hg.tok0 v x' hx1 ts' hts'
      exact ⟨h1, p, by simp [hp], h2⟩
    · rw [addToken_tokens, dget_setdefaultAppend, hnoσ v x hx1] at hts'
      by_cases hσs : σ = []
      · simp only [hσs, if_true, Option.getD_none, List.nil_append, Option.some.injEq] at hts'
        subst hts'
        exact ⟨by simp, ⟨σ, newSegs al g.next ts⟩, by simp, hσs, List.mem_map.mpr ⟨_, hmem, rfl⟩⟩
      · rw [if_neg hσs] at hts'
        obtain ⟨h1, p, hp, h2⟩ := hg.tok0 v x hx1 ts' hts'
        exact ⟨h1, p, by simp [hp], h2⟩
    · by_cases hσe : σ = []
      · subst hσe; simp [mkVertex_tokens_nil] at hts'
      · rw [mkVertex_tokens t σ hσe] at hts'
        simp [dget, hσe] at hts'
  case tok_nd =>
    intro v x' hx
    rw [hdget] at hx
    rcases htok v x' hx with ⟨hv, hx1⟩ | ⟨t, x, hmem, _, hx1, rfl⟩ | ⟨t, hmem, hx1, rfl⟩
    · exact hg.tok_nd v x' hx1
    · rw [addToken_tokens, keys_setdefaultAppend]
      split
      · exact hg.tok_nd v x hx1
      · rename_i hn
        rw [List.nodup_append]
        refine ⟨hg.tok_nd v x hx1, by simp, ?_⟩
        intro a ha' b hb hab
        simp at hb
        subst hb; subst hab; exact hn ha'
    · by_cases hσe : σ = []
      · subst hσe; simp [mkVertex_tokens_nil]
      · rw [mkVertex_tokens t σ hσe]; simp
  case near => simp [o3, hg.near]
  case lab =>
    intro e he
    rw [connect_edges] at he
    have hE : s'.g.edges = connPath σ g.edges startV ((newSegs al g.next ts).map Prod.fst) := by
      rw [← hs', mergeLoop_edges]
    rw [hE, ← connPath_snoc σ _ g.edges startV endV s'.last o6] at he
    have hP : (startV :: ((newSegs al g.next ts).map Prod.fst ++ [endV])) = (⟨σ, newSegs al g.next ts⟩ : WPath).path := rfl
    have := mem_connPath σ _ g.edges startV (by rw [hP]; exact hfull_nd) e he
    rw [hP] at this
    rw [labelOf_snoc]
    rcases this with ⟨h1, h2⟩ | ⟨h1, ⟨e0, h2, h3, h4, h5⟩ | ⟨h2, h3⟩⟩
    · rw [if_neg h1]; exact hg.lab e h2
    · rw [if_pos h1, if_pos ((hg.edges_iff _ _).mp (by rw [← h3, ← h4]; exact mem_pairs_of_edge h2)), h5, hg.lab e0 h2, h3, h4]
    · rw [if_pos h1, if_neg (fun hc => h2 ((hg.edges_iff _ _).mpr hc)), h3]
  case lay =>
    refine layered_add_path ha.edges g.next ?_ _ hfull_nd ?_ _ ?_
    · intro p hp
      have := hg.wf.ends p hp
      exact ⟨hg.fresh _ this.1, hg.fresh _ this.2⟩
    · have hold : ∀ v ∈ (newSegs al g.next ts).map Prod.fst, v < g.next → v ∈ g.vertices := by
        intro v hv hvn
        obtain ⟨⟨w, l⟩, hw, rfl⟩ := List.mem_map.mp hv
        obtain ⟨t, ht, _, hc⟩ := newSegs_mem hw
        simp only at hvn ⊢
        rcases hc with hc | ⟨_, hc, _⟩
        · exact (ha.inner t ht w hc).1
        · omega
      rw [hpath, List.cons_append, List.pairwise_cons, List.pairwise_append]
      refine ⟨?_, newSegs_pairwise (Nat.le_refl _) ha.mono, by simp, ?_⟩
      · intro b hb _ hbn
        rcases List.mem_append.mp hb with hb | hb
        · exact Nat.le_of_lt (ha.lo b (hold b hb hbn) (hin b hb).1)
        · simp at hb; subst hb
          exact Nat.le_of_lt (ha.lo _ hg.end_mem (by decide))
      · intro a ha' b hb han _
        simp at hb; subst hb
        exact Nat.le_of_lt (ha.hi a (hold a ha' han) (hin a ha').2.1)
    · rintro ⟨u, v⟩ hp
      exact (hpairs u v).mp hp

end CollateX
