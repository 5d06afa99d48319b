import Verif.Proofs.Collated
import Mathlib.Tactic.Tauto
/-
The alignment table, for any ranking that lists each vertex under its rank.
-/

namespace CollateX
open Spec

/-- The tokens of a vertex. -/
def VGraph.toks (g : VGraph) (v : VId) : Dict Str (List Token) :=
  match dget g.nodes v with
  | some x => x.tokens
  | none => []

/-- Neither start nor end. -/
def inside (v : VId) : Bool := decide (v ≠ startV ∧ v ≠ endV)

def putToks (g : VGraph) (vs : List VId) (d : Dict Str (List Token)) : Dict Str (List Token) :=
  vs.foldl (fun d v => dupdate d (g.toks v)) d

/-- The loop over the vertices of a rank. -/
theorem columnLoop_eq (g : VGraph) (nV nW : Nat) : ∀ (vs : List VId) (c : Option Column),
    columnLoop g nV nW vs c =
      if vs.filter inside = [] then c
      else some ⟨putToks g (vs.filter inside) (c.getD ⟨[], false⟩).tokens,
        decide (nV > 1) || decide ((putToks g (vs.filter inside) (c.getD ⟨[], false⟩).tokens).length ≠ nW)⟩
  | [], c => by simp [columnLoop]
  | v :: vs, c => by
    rw [columnLoop]
    by_cases h : v = startV ∨ v = endV
    · have hin : inside v = false := by
        unfold inside
        rcases h with h | h <;> simp [h]
      rw [if_pos h, columnLoop_eq, List.filter_cons_of_neg (by simp [hin])]
    · have hin : inside v = true := by
        unfold inside
        simpa [not_or] using h
      rw [if_neg h, List.filter_cons_of_pos hin, if_neg (by simp)]
      simp only []
      rw [columnLoop_eq]
      by_cases h0 : vs.filter inside = []
      · rw [if_pos h0, h0]
        rfl
      · rw [if_neg h0]
        rfl

theorem dget_putToks_none {g : VGraph} {σ : Str} : ∀ (vs : List VId) (d : Dict Str (List Token)),
    (∀ v ∈ vs, ((g.toks v).map Prod.fst).Nodup) → (∀ v ∈ vs, dget (g.toks v) σ = none) →
    dget (putToks g vs d) σ = dget d σ
  | [], _, _, _ => rfl
  | v :: vs, d, nd, h => by
    show dget (putToks g vs (dupdate d (g.toks v))) σ = _
    rw [dget_putToks_none vs _ (fun u hu => nd u (by simp [hu])) (fun u hu => h u (by simp [hu])),
      dget_dupdate _ _ (nd v (by simp)), h v (by simp)]
    rfl

theorem dget_putToks_some {g : VGraph} {σ : Str} {v : VId} {ts : List Token} : ∀ (vs : List VId) (d : Dict Str (List Token)),
    (∀ v ∈ vs, ((g.toks v).map Prod.fst).Nodup) → v ∈ vs → dget (g.toks v) σ = some ts →
    (∀ u ∈ vs, dget (g.toks u) σ ≠ none → u = v) → dget (putToks g vs d) σ = some ts
  | [], _, _, hv, _, _ => by simp at hv
  | u :: vs, d, nd, hv, h, hu => by
    show dget (putToks g vs (dupdate d (g.toks u))) σ = _
    by_cases hmem : v ∈ vs
    · exact dget_putToks_some vs _ (fun u hu => nd u (by simp [hu])) hmem h (fun u h' => hu u (by simp [h']))
    · have : u = v := by
        rcases List.mem_cons.mp hv with h' | h'
        · exact h'.symm
        · exact absurd h' hmem
      subst this
      rw [dget_putToks_none vs _ (fun u hu => nd u (by simp [hu])), dget_dupdate _ _ (nd u (by simp)), h]
      · rfl
      · intro w hw
        by_contra hne
        exact hmem (hu w (by simp [hw]) hne ▸ hw)

theorem nodup_putToks {g : VGraph} : ∀ (vs : List VId) (d : Dict Str (List Token)), (d.map Prod.fst).Nodup →
    ((putToks g vs d).map Prod.fst).Nodup
  | [], _, h => h
  | v :: vs, d, h => nodup_putToks vs (dupdate d (g.toks v)) (nodup_keys_dupdate _ _ h)

theorem mem_putToks {g : VGraph} {σ : Str} : ∀ (vs : List VId) (d : Dict Str (List Token)),
    σ ∈ (putToks g vs d).map Prod.fst ↔ σ ∈ d.map Prod.fst ∨ ∃ v ∈ vs, σ ∈ (g.toks v).map Prod.fst
  | [], d => by simp [putToks]
  | v :: vs, d => by
    show σ ∈ (putToks g vs (dupdate d (g.toks v))).map Prod.fst ↔ _
    rw [mem_putToks, mem_keys_dupdate]
    simp [or_assoc]
    tauto

/-- `r` lists each vertex exactly under its rank `f`, ranks `0 .. m-1` in order; a rank may have no vertices. -/
structure ByRank (g : VGraph) (f : VId → Nat) (m : Nat) (L : Nat → List VId) (r : Ranking) : Prop where
  br : r.byRank = (List.range m).map (fun k => (k, L k))
  nd : ∀ k < m, (L k).Nodup
  mem : ∀ k < m, ∀ v, v ∈ L k ↔ v ∈ g.vertices ∧ f v = k
  lt : ∀ v ∈ g.vertices, f v < m

theorem RankingOf.byRanked {g : VGraph} {f : VId → Nat} {o : List VId} {m : Nat} {r : Ranking} (h : RankingOf g f o m r)
    (nd : g.vertices.Nodup) : ByRank g f m (fun k => o.filter (fun v => f v = k)) r where
  br := h.st.br
  nd k _ := (h.topo.perm.nodup_iff.mpr nd).filter _
  mem k _ v := by rw [List.mem_filter, h.topo.perm.mem_iff]; simp
  lt v hv := h.st.lt v (h.topo.perm.mem_iff.mpr hv)

/-- The column of a rank, if it has one. -/
def colAt (g : VGraph) (n : Nat) (L : Nat → List VId) (k : Nat) : Option Column := columnLoop g (L k).length n (L k) none

theorem ByRank.columns {g : VGraph} {f : VId → Nat} {m : Nat} {L : Nat → List VId} {r : Ranking} (h : ByRank g f m L r)
    (ws : Collation) : (mkTable ws g r).columns = (List.range m).filterMap (colAt g ws.length L) := by
  unfold mkTable
  simp only [h.br]
  rw [List.filterMap_map]
  rfl

theorem mkTable_rows (ws : Collation) (g : VGraph) (r : Ranking) : (mkTable ws g r).rows =
    ws.map (fun w => { header := w.sigil, cells := (mkTable ws g r).columns.map (fun c => dget c.tokens w.sigil) }) := rfl

/-- Values along a strictly increasing sequence of keys. -/
theorem filterMap_increasing {α β : Type} (f : α → Nat) (val : α → β) (h : Nat → Option β) : ∀ (n a : Nat) (l : List α),
    l.Pairwise (fun x y => f x < f y) → (∀ x ∈ l, a ≤ f x ∧ f x < a + n) →
    (∀ k b, a ≤ k → (h k = some b ↔ ∃ x ∈ l, f x = k ∧ val x = b)) →
    (List.range' a n).filterMap h = l.map val
  | 0, a, l, _, hb, _ => by
    cases l with
    | nil => rfl
    | cons x l => have := hb x (by simp); omega
  | n + 1, a, l, hp, hb, hh => by
    rw [List.range'_succ]
    cases l with
    | nil =>
      have hn : ∀ k, a ≤ k → h k = none := by
        intro k hk
        cases he : h k with
        | none => rfl
        | some b => obtain ⟨x, hx, _⟩ := (hh k b hk).mp he; simp at hx
      rw [List.filterMap_cons_none (hn a (Nat.le_refl a))]
      have := filterMap_increasing f val h n (a + 1) [] .nil (by simp) (by
        intro k b hk
        rw [hn k (by omega)]; simp)
      simpa using this
    | cons x l =>
      have hx := hb x (by simp)
      rw [List.pairwise_cons] at hp
      by_cases hxa : f x = a
      · have h1 : h a = some (val x) := (hh a (val x) (Nat.le_refl a)).mpr ⟨x, by simp, hxa, rfl⟩
        rw [List.filterMap_cons_some h1, List.map_cons]
        congr 1
        apply filterMap_increasing f val h n (a + 1) l hp.2
        · intro y hy
          have := hp.1 y hy
          have := hb y (by simp [hy])
          omega
        · intro k b hk
          rw [hh k b (by omega)]
          constructor
          · rintro ⟨y, hy, h2, h3⟩
            rcases List.mem_cons.mp hy with rfl | hy
            · omega
            · exact ⟨y, hy, h2, h3⟩
          · rintro ⟨y, hy, h2, h3⟩
            exact ⟨y, by simp [hy], h2, h3⟩
      · have h1 : h a = none := by
          cases he : h a with
          | none => rfl
          | some b =>
            obtain ⟨y, hy, h2, _⟩ := (hh a b (Nat.le_refl a)).mp he
            rcases List.mem_cons.mp hy with rfl | hy
            · exact absurd h2 hxa
            · have := hp.1 y hy; omega
        rw [List.filterMap_cons_none h1]
        apply filterMap_increasing f val h n (a + 1) (x :: l) (List.pairwise_cons.mpr hp)
        · intro y hy
          have h3 := hb y hy
          rcases List.mem_cons.mp hy with rfl | hy
          · omega
          · have := hp.1 y hy; omega
        · intro k b hk
          exact hh k b (by omega)

section
variable {g : VGraph} {ps : List WPath}

theorem GInv.toks_nd (hg : GInv g ps) (v : VId) : ((g.toks v).map Prod.fst).Nodup := by
  unfold VGraph.toks
  split
  · rename_i x hx; exact hg.tok_nd v x hx
  · simp

theorem GInv.toks_iff (hg : GInv g ps) (hs : ∀ p ∈ ps, p.sigil ≠ []) {v : VId} {σ : Str} {ts : List Token} :
    dget (g.toks v) σ = some ts ↔ ∃ p ∈ ps, p.sigil = σ ∧ (v, ts) ∈ p.segs := by
  constructor
  · intro h
    unfold VGraph.toks at h
    split at h
    · rename_i x hx
      by_cases hσ : σ = []
      · subst hσ
        obtain ⟨_, p, hp, h0, _⟩ := hg.tok0 v x hx ts h
        exact absurd h0 (hs p hp)
      · exact (hg.tok v x hx σ hσ ts).mp h
    · simp [dget] at h
  · rintro ⟨p, hp, rfl, hm⟩
    obtain ⟨x, hx⟩ := exists_dget_of_mem_keys (hg.segs_in p hp _ hm).1
    unfold VGraph.toks
    rw [hx]
    exact (hg.tok v x hx _ (hs p hp) ts).mpr ⟨p, hp, rfl, hm⟩

theorem GInv.toks_iff_of_ne (hg : GInv g ps) {v : VId} {σ : Str} (hσ : σ ≠ []) {ts : List Token} :
    dget (g.toks v) σ = some ts ↔ ∃ p ∈ ps, p.sigil = σ ∧ (v, ts) ∈ p.segs := by
  constructor
  · intro h
    unfold VGraph.toks at h
    split at h
    · rename_i x hx
      exact (hg.tok v x hx σ hσ ts).mp h
    · simp [dget] at h
  · rintro ⟨p, hp, rfl, hm⟩
    obtain ⟨x, hx⟩ := exists_dget_of_mem_keys (hg.segs_in p hp _ hm).1
    unfold VGraph.toks
    rw [hx]
    exact (hg.tok v x hx _ hσ ts).mpr ⟨p, hp, rfl, hm⟩

theorem inside_of_seg (hg : GInv g ps) {p : WPath} (hp : p ∈ ps) {q : VId × List Token} (hq : q ∈ p.segs) :
    inside q.1 = true := by
  have := hg.segs_in p hp q hq
  simp [inside, this.2.1, this.2.2.1]

variable {f : VId → Nat} {m : Nat} {L : Nat → List VId} {r : Ranking}

/-- The cell of a witness whose path is strictly increasing in rank. -/
theorem ByRank.cell (R : ByRank g f m L r) (hg : GInv g ps) {p : WPath} (hp : p ∈ ps) (hs : p.sigil ≠ [])
    (hinc : p.inner.Pairwise (fun u v => f u < f v)) (n : Nat) {k : Nat} (hk : k < m) (ts : List Token) :
    (colAt g n L k).bind (fun c => dget c.tokens p.sigil) = some ts ↔ ∃ q ∈ p.segs, f q.1 = k ∧ q.2 = ts := by
  have hcarr : ∀ v us, dget (g.toks v) p.sigil = some us ↔ (v, us) ∈ p.segs := by
    intro v us
    rw [hg.toks_iff_of_ne hs]
    constructor
    · rintro ⟨q, hq, h1, h2⟩
      obtain rfl := sigil_unique hg hq hp h1
      exact h2
    · intro h; exact ⟨p, hp, rfl, h⟩
  have hinj : ∀ q ∈ p.segs, ∀ q' ∈ p.segs, f q.1 = f q'.1 → q.1 = q'.1 := by
    intro q hq q' hq' he
    by_contra hne
    have h1 : q.1 ∈ p.inner := List.mem_map.mpr ⟨q, hq, rfl⟩
    have h2 : q'.1 ∈ p.inner := List.mem_map.mpr ⟨q', hq', rfl⟩
    obtain ⟨i, hi, hie⟩ := List.mem_iff_getElem.mp h1
    obtain ⟨j, hj, hje⟩ := List.mem_iff_getElem.mp h2
    have hpw := List.pairwise_iff_getElem.mp hinc
    rcases Nat.lt_trichotomy i j with h | h | h
    · have := hpw i j hi hj h; rw [hie, hje] at this; omega
    · subst h; rw [hie] at hje; exact hne hje
    · have := hpw j i hj hi h; rw [hie, hje] at this; omega
  unfold colAt
  rw [columnLoop_eq]
  by_cases hex : ∃ q ∈ p.segs, f q.1 = k
  · obtain ⟨q, hq, hqk⟩ := hex
    have hin := hg.segs_in p hp q hq
    have hmem : q.1 ∈ (L k).filter inside :=
      List.mem_filter.mpr ⟨(R.mem k hk _).mpr ⟨hin.1, hqk⟩, inside_of_seg hg hp hq⟩
    rw [if_neg (List.ne_nil_of_mem hmem)]
    simp only [Option.bind_some]
    rw [dget_putToks_some (v := q.1) (ts := q.2) _ _ (fun v _ => hg.toks_nd v) hmem ((hcarr _ _).mpr hq)]
    · constructor
      · intro h
        exact ⟨q, hq, hqk, Option.some.inj h⟩
      · rintro ⟨q', hq', h1, rfl⟩
        have he := hinj q hq q' hq' (by omega)
        have h2 := (hcarr q.1 q.2).mpr hq
        have h3 := (hcarr q'.1 q'.2).mpr hq'
        rw [he] at h2
        rw [h2] at h3
        exact h3
    · intro u hu hne
      obtain ⟨us, hus⟩ := Option.ne_none_iff_exists'.mp hne
      have hu' := (R.mem k hk u).mp (List.mem_filter.mp hu).1
      exact hinj _ ((hcarr _ _).mp hus) q hq (by simp only; omega)
  · constructor
    · intro h
      exfalso
      split at h
      · simp at h
      · simp only [Option.bind_some] at h
        rw [dget_putToks_none _ _ (fun v _ => hg.toks_nd v)] at h
        · simp [dget] at h
        · intro u hu
          cases he : dget (g.toks u) p.sigil with
          | none => rfl
          | some us =>
            have hu' := (R.mem k hk u).mp (List.mem_filter.mp hu).1
            exact absurd ⟨_, (hcarr _ _).mp he, hu'.2⟩ hex
    · rintro ⟨q, hq, h1, _⟩
      exact absurd ⟨q, hq, h1⟩ hex

/-- A row, read from left to right. -/
theorem ByRank.row (R : ByRank g f m L r) (hg : GInv g ps) {p : WPath} (hp : p ∈ ps) (hs : p.sigil ≠ [])
    (hinc : p.inner.Pairwise (fun u v => f u < f v)) (ws : Collation) :
    ((mkTable ws g r).columns.map (fun c => dget c.tokens p.sigil)).filterMap id = p.segs.map Prod.snd := by
  rw [R.columns, List.filterMap_map, List.filterMap_filterMap]
  have hinc' : p.segs.Pairwise (fun x y => f x.1 < f y.1) := by
    unfold WPath.inner at hinc
    rw [List.pairwise_map] at hinc
    exact hinc
  have h := filterMap_increasing (fun q : VId × List Token => f q.1) Prod.snd
    (fun k => if k < m then (colAt g ws.length L k).bind (fun c => dget c.tokens p.sigil) else none) m 0 p.segs hinc'
    (by
      intro q hq
      have := R.lt q.1 (hg.segs_in p hp q hq).1
      omega)
    (by
      intro k b _
      by_cases hk : k < m
      · rw [if_pos hk]; exact R.cell hg hp hs hinc ws.length hk b
      · rw [if_neg hk]
        constructor
        · intro h; cases h
        · rintro ⟨q, hq, h1, _⟩
          have := R.lt q.1 (hg.segs_in p hp q hq).1
          omega)
  rw [← h, List.range_eq_range']
  apply List.filterMap_congr
  intro k hk
  rw [if_pos (by have := List.mem_range'_1.mp hk; omega)]
  rfl

/-! ### Columns -/

/-- A column is not marked variant: its rank has one vertex, with as many sigla as there are witnesses. -/
theorem colAt_not_variant {n k : Nat} {c : Column} (h : colAt g n L k = some c) (hv : c.variant = false) :
    (L k).length ≤ 1 ∧ c.tokens.length = n := by
  unfold colAt at h
  rw [columnLoop_eq] at h
  split at h
  · cases h
  · injection h with h
    rw [← h] at hv ⊢
    simpa using hv

theorem colAt_nodup {n k : Nat} {c : Column} (h : colAt g n L k = some c) : (c.tokens.map Prod.fst).Nodup := by
  unfold colAt at h
  rw [columnLoop_eq] at h
  split at h
  · cases h
  · injection h with h
    rw [← h]
    exact nodup_putToks _ _ (by simp)

theorem colAt_mem {n k : Nat} {c : Column} (h : colAt g n L k = some c) {σ : Str} :
    σ ∈ c.tokens.map Prod.fst ↔ ∃ v ∈ L k, inside v = true ∧ σ ∈ (g.toks v).map Prod.fst := by
  unfold colAt at h
  rw [columnLoop_eq] at h
  split at h
  · cases h
  · injection h with h
    rw [← h]
    simp only [Option.getD_none]
    rw [mem_putToks]
    simp [and_assoc]

theorem colAt_isSome {n k : Nat} : (∃ c, colAt g n L k = some c) ↔ ∃ v ∈ L k, inside v = true := by
  unfold colAt
  rw [columnLoop_eq]
  split
  · rename_i h
    simp only [reduceCtorEq, exists_false, false_iff, not_exists, not_and]
    intro v hv hi
    have : v ∈ (L k).filter inside := List.mem_filter.mpr ⟨hv, hi⟩
    rw [h] at this
    simp at this
  · rename_i h
    obtain ⟨v, hv⟩ := List.exists_mem_of_ne_nil _ h
    exact ⟨fun _ => ⟨v, List.mem_filter.mp hv⟩, fun _ => ⟨_, rfl⟩⟩

theorem subset_of_length {A : Type} [DecidableEq A] {l s : List A} (hl : l.Nodup) (hsub : ∀ a ∈ l, a ∈ s)
    (hlen : l.length = s.length) : ∀ a ∈ s, a ∈ l := by
  intro a ha
  by_contra hn
  have := nodup_length_le (l := a :: l) (List.nodup_cons.mpr ⟨hn, hl⟩) (m := s) (by
    intro b hb
    rcases List.mem_cons.mp hb with rfl | hb
    · exact ha
    · exact hsub b hb)
  simp at this
  omega

/-- Every column has a cell that is not empty; every key of a column is a siglum. -/
theorem ByRank.col_keys (R : ByRank g f m L r) (hg : GInv g ps) (hs : ∀ p ∈ ps, p.sigil ≠ []) {n k : Nat} (hk : k < m)
    {c : Column} (h : colAt g n L k = some c) :
    (∀ σ ∈ c.tokens.map Prod.fst, ∃ p ∈ ps, p.sigil = σ) ∧ ∃ p ∈ ps, p.sigil ∈ c.tokens.map Prod.fst := by
  constructor
  · intro σ hσ
    obtain ⟨v, _, _, h2⟩ := (colAt_mem h).mp hσ
    obtain ⟨ts, hts⟩ := exists_dget_of_mem_keys h2
    obtain ⟨p, hp, h3, _⟩ := (hg.toks_iff hs).mp hts
    exact ⟨p, hp, h3⟩
  · obtain ⟨v, hv, hi⟩ := colAt_isSome.mp ⟨c, h⟩
    have hvm := (R.mem k hk v).mp hv
    simp only [inside, decide_eq_true_eq] at hi
    obtain ⟨p, hp, hvp⟩ := hg.cover v hvm.1 hi.1 hi.2
    obtain ⟨⟨v', ts⟩, hq, rfl⟩ := List.mem_map.mp hvp
    refine ⟨p, hp, (colAt_mem h).mpr ⟨v', hv, by simpa [inside] using hi, ?_⟩⟩
    have := (hg.toks_iff hs (v := v') (σ := p.sigil) (ts := ts)).mpr ⟨p, hp, rfl, hq⟩
    exact List.mem_map.mpr ⟨_, dget_mem this, rfl⟩

/-- What stands in a column under a siglum is what the witness has on a vertex of this rank. -/
theorem ByRank.col_entry (R : ByRank g f m L r) (hg : GInv g ps) (hs : ∀ p ∈ ps, p.sigil ≠ []) {n k : Nat} (hk : k < m)
    {c : Column} (h : colAt g n L k = some c) {p : WPath} (hp : p ∈ ps) {ts : List Token}
    (hd : dget c.tokens p.sigil = some ts) : ∃ v ∈ L k, (v, ts) ∈ p.segs := by
  unfold colAt at h
  rw [columnLoop_eq] at h
  split at h
  · cases h
  · injection h with h
    rw [← h] at hd
    have key : ∀ (vs : List VId) (d : Dict Str (List Token)), dget (putToks g vs d) p.sigil = some ts →
        dget d p.sigil = some ts ∨ ∃ v ∈ vs, dget (g.toks v) p.sigil = some ts := by
      intro vs
      induction vs with
      | nil => intro d h; exact Or.inl h
      | cons v vs ih =>
        intro d h
        rcases ih (dupdate d (g.toks v)) h with h | ⟨u, hu, h⟩
        · rw [dget_dupdate _ _ (hg.toks_nd v)] at h
          cases he : dget (g.toks v) p.sigil with
          | none => rw [he] at h; exact Or.inl (by simpa using h)
          | some us =>
            rw [he] at h
            exact Or.inr ⟨v, by simp, by rw [he]; simpa using h⟩
        · exact Or.inr ⟨u, by simp [hu], h⟩
    rcases key _ _ hd with h | ⟨v, hv, h⟩
    · simp at h
    · obtain ⟨q, hq, h1, h2⟩ := (hg.toks_iff hs).mp h
      obtain rfl := sigil_unique hg hq hp h1
      exact ⟨v, (List.mem_filter.mp hv).1, h2⟩

end

/-! ### The table of a collation -/

/-- A table comes from a collated graph. -/
theorem table_of (env : Env) (hts : TopoSpec env.topo) {ws : List Witness} (hv : Valid ws) {o : Opts} (ho : ExactMatching o)
    {t : Table} (h : collateTable env ws o = .ok t) :
    ∃ g ps rk rkf ord m, collateRanked env ws o = .ok (indexed 0 ws, g, rk) ∧
      Collated env.cc (indexed 0 ws) o.segmentation g ps rk rkf ord m ∧ t = mkTable (indexed 0 ws) g rk := by
  obtain ⟨g, ps, rk, rkf, ord, m, h1, h2⟩ := collateRanked_ok env hts hv o ho.astar ho.detect ho.near
  refine ⟨g, ps, rk, rkf, ord, m, h1, h2, ?_⟩
  unfold collateTable at h
  rw [h1] at h
  exact (Except.ok.inj h).symm

section
variable {cc : CharClass} {ws : List Witness} {seg : Bool} {g : VGraph} {ps : List WPath} {rk : Ranking} {rkf : VId → Nat}
  {ord : List VId} {m : Nat}

theorem Collated.inner_increasing (C : Collated cc ws seg g ps rk rkf ord m) {p : WPath} (hp : p ∈ ps) :
    p.inner.Pairwise (fun u v => rkf u < rkf v) := by
  have h := C.ginv.path_increasing (h := rkf) (fun q hq => C.rank.isRank.lt C.ginv.wf (u := q.1) (v := q.2) hq) hp
  unfold WPath.path at h
  exact (List.pairwise_append.mp (List.pairwise_cons.mp h).2).1

theorem Collated.byRank (C : Collated cc ws seg g ps rk rkf ord m) :
    ByRank g rkf m (fun k => ord.filter (fun v => rkf v = k)) rk := C.rank.byRanked C.ginv.nd

theorem Collated.row (C : Collated cc ws seg g ps rk rkf ord m) {k : Nat} {w : Witness} (hw : ws[k]? = some w)
    (hs : w.sigil ≠ []) :
    ∃ p, ps[k]? = some p ∧ p.sigil = w.sigil ∧ p.text = w.tokens ∧
      ((mkTable ws g rk).columns.map (fun c => dget c.tokens w.sigil)).filterMap id = p.segs.map Prod.snd := by
  obtain ⟨p, hp, h1, h2⟩ := C.at hw
  have := C.byRank.row C.ginv (List.mem_of_getElem? hp) (by rw [h1]; exact hs) (C.inner_increasing (List.mem_of_getElem? hp)) ws
  rw [h1] at this
  exact ⟨p, hp, h1, h2, this⟩

/-- A column of the table belongs to a rank. -/
theorem Collated.col (C : Collated cc ws seg g ps rk rkf ord m) {j : Nat} {c : Column}
    (hc : (mkTable ws g rk).columns[j]? = some c) :
    ∃ k, k < m ∧ colAt g ws.length (fun k => ord.filter (fun v => rkf v = k)) k = some c := by
  have := List.mem_of_getElem? hc
  rw [C.byRank.columns] at this
  obtain ⟨k, hk, h⟩ := List.mem_filterMap.mp this
  exact ⟨k, List.mem_range.mp hk, h⟩

theorem Collated.sigil_mem (C : Collated cc ws seg g ps rk rkf ord m) {p : WPath} (hp : p ∈ ps) :
    ∃ (k : Nat) (w : Witness), ws[k]? = some w ∧ w.sigil = p.sigil := by
  have : p.sigil ∈ ps.map WPath.sigil := List.mem_map.mpr ⟨p, hp, rfl⟩
  rw [C.sigils] at this
  obtain ⟨w, hw, he⟩ := List.mem_map.mp this
  obtain ⟨k, hk⟩ := List.getElem?_of_mem hw
  exact ⟨k, w, hk, he⟩

theorem row_at {k : Nat} {row : Row} (h : (mkTable ws g rk).rows[k]? = some row) :
    ∃ w, ws[k]? = some w ∧ row.header = w.sigil ∧
      row.cells = (mkTable ws g rk).columns.map (fun c => dget c.tokens w.sigil) := by
  rw [mkTable_rows, List.getElem?_map] at h
  obtain ⟨w, hw, he⟩ := Option.map_eq_some_iff.mp h
  exact ⟨w, hw, by rw [← he], by rw [← he]⟩

end

end CollateX
