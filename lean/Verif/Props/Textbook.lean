import Verif.Proofs.Columns
import Verif.Props.Placing
import Verif.Props.Passage
/-
Property C102: two witnesses are collated as by a short program on two lists of words.
-/

namespace CollateX
open Spec

/-- The rows of a table with the given columns, with the mark of each column. With segmentation neighbouring columns with the same mark are put
together. -/
def Spec.showsPairs (seg : Bool) (cols : List MarkedPair) : List (List (Bool × Option (List Str))) :=
  let rows := [cols.map (fun c => (c.1, c.2.1.map (fun s => [s]))), cols.map (fun c => (c.1, c.2.2.map (fun s => [s])))]
  if seg then rows.map mergedRuns else rows

/-- Two witnesses: which vertices they share. -/
theorem linked_core (env : Env) (hts : TopoSpec env.topo) (wA wB : Witness) (hv : Valid [wA, wB]) (o : Opts) (ho : ExactMatching o)
    (hf : o.pfilter = none) (hseg : o.segmentation = false) :
    ∃ g rk a b p P rkf ord m, indexed 0 [wA, wB] = [a, b] ∧ collateRanked env [wA, wB] o = .ok ([a, b], g, rk) ∧
      Collated env.cc [a, b] false g [p, P] rk rkf ord m ∧ a.tokens.map Token.str = strings wA ∧ b.tokens.map Token.str = strings wB ∧
      ∀ i j, (∃ v, p.inner[i]? = some v ∧ P.inner[j]? = some v) ↔ (i, j) ∈ linked (strings wA) (strings wB) := by
  let R : VGraph → List WPath → Prop := fun g ps => ∀ p P, ps = [p, P] → ∀ i j, (∃ v, p.inner[i]? = some v ∧ P.inner[j]? = some v) ↔
    (i, j) ∈ linked (strings wA) (strings wB)
  obtain ⟨g, ps, rk, rkf, ord, m, h1, C, hR⟩ := collateRanked_inv env hts hv o ho.astar ho.detect ho.near
    (Q := fun _ s ps => R s.g ps) (R := R)
    (fun ti hti L B => by
      refine ⟨?_, ?_, fun _ _ _ _ h => h⟩
      · rw [hf]
        rintro s s' ps w P rkf o m r cube cells al hs hne hw hs' hst - p P' he
        obtain ⟨rfl, he2⟩ : ps = [p] ∧ [P] = [P'] := List.append_inj he (by
          have := congrArg List.length he
          simpa using this)
        obtain rfl : P = P' := by simpa using he2
        have hb : Base p [p] := ⟨by simp, by simp⟩
        obtain ⟨x0, hx0⟩ : ∃ x0, ti.ws[0]? = some x0 := ⟨_, List.getElem?_eq_getElem (by rw [hti, indexed_length]; simp)⟩
        have hiff := hb.cube_iff L B hs hw hst hx0 rfl
        have hn := congrArg List.length (hs.reads 0 x0 p hx0 rfl).2
        simp only [List.length_map] at hn
        have e1 : w.tokens.map Token.str = strings wB := by
          rw [hti] at hw
          obtain ⟨a, e1, _, e2⟩ := indexed_strs _ hw
          simp only [List.length_cons, List.length_nil, Nat.zero_add, List.getElem?_cons_succ, List.getElem?_cons_zero,
            Option.some.injEq] at e1
          rw [e2, e1]
          rfl
        have e0 : x0.tokens.map Token.str = strings wA := by
          rw [hti] at hx0
          obtain ⟨a, e1, _, e2⟩ := indexed_strs _ hx0
          simp only [List.getElem?_cons_zero, Option.some.injEq] at e1
          rw [e2, e1]
          rfl
        rw [e1, e0] at hiff
        intro i j
        have := hst.links (A := strings wA) (B := strings wB) L hs hw hs' (by
          intro y x
          rw [Bool.eq_iff_iff, hiff]
          unfold sameAt
          constructor
          · rintro ⟨a, h1, h2⟩
            simp [h1, h2]
          · intro h
            cases h1 : (strings wA)[x]? with
            | none => rw [h1] at h; cases h
            | some a =>
              cases h2 : (strings wB)[y]? with
              | none => rw [h1, h2] at h; cases h
              | some b =>
                rw [h1, h2] at h
                simp only [decide_eq_true_eq] at h
                exact ⟨b, rfl, by rw [h]⟩) (by rw [← e0, List.length_map, hn]) (by rw [← e1, List.length_map]) i j
        rw [this]
        unfold linked
        rw [List.mem_reverse]
      · intro w s _ _ p P he
        simp at he) (fun h => by rw [hseg] at h; cases h)
  rw [hseg] at C
  have hlen : ps.length = 2 := by rw [C.length, indexed_length]; rfl
  obtain ⟨p, P, rfl⟩ : ∃ p P, ps = [p, P] := by
    match ps, hlen with
    | [p, P], _ => exact ⟨p, P, rfl⟩
  have hwlen : (indexed 0 [wA, wB]).length = 2 := indexed_length _ _
  obtain ⟨a, b, hab⟩ : ∃ a b, indexed 0 [wA, wB] = [a, b] := by
    match indexed 0 [wA, wB], hwlen with
    | [a, b], _ => exact ⟨a, b, rfl⟩
  have hA : a.tokens.map Token.str = strings wA := by
    obtain ⟨a', e1, _, e2⟩ := indexed_strs [wA, wB] (k := 0) (w := a) (by rw [hab]; rfl)
    simp only [List.getElem?_cons_zero, Option.some.injEq] at e1
    rw [e2, e1]
    rfl
  have hB : b.tokens.map Token.str = strings wB := by
    obtain ⟨a', e1, _, e2⟩ := indexed_strs [wA, wB] (k := 1) (w := b) (by rw [hab]; rfl)
    simp only [List.getElem?_cons_succ, List.getElem?_cons_zero, Option.some.injEq] at e1
    rw [e2, e1]
    rfl
  rw [hab] at C h1
  exact ⟨g, rk, a, b, p, P, rkf, ord, m, hab, h1, C, hA, hB, hR p P rfl⟩

section
variable {cc : CharClass} {ws : List Witness} {g : VGraph} {ps : List WPath} {rk : Ranking} {rkf : VId → Nat}
  {ord : List VId} {m : Nat}

/-- The segments of a path are the tokens of its witness, one by one. -/
theorem Collated.segs_at (C : Collated cc ws false g ps rk rkf ord m) {k : Nat} {w : Witness} {p : WPath} (hw : ws[k]? = some w)
    (hp : ps[k]? = some p) : p.segs.map Prod.snd = w.tokens.map (fun t => [t]) := by
  obtain ⟨p', hp', _, ht⟩ := C.at hw
  rw [hp] at hp'
  obtain rfl := Option.some.inj hp'
  rw [← ht]
  have hs := C.single rfl p (List.mem_of_getElem? hp)
  unfold WPath.text
  generalize p.segs = l at hs
  induction l with
  | nil => rfl
  | cons q l ih =>
    obtain ⟨t, h1⟩ := hs q (by simp)
    have := ih (fun q hq => hs q (by simp [hq]))
    simp only [List.map_cons, List.flatMap_cons, List.map_append, h1, this]
    rfl

/-- A cell of a table, as a string. -/
def cellWord (t : Table) (k j : Nat) : Option Str := ((t.rows[k]?).bind (fun r => cellAt r j)).bind List.head?

/-- The word in a cell of an unsegmented table. -/
theorem Collated.cellWord_iff (C : Collated cc ws false g ps rk rkf ord m) (hs : ∀ w ∈ ws, w.sigil ≠ []) (hne : ws ≠ []) {k j : Nat}
    {w : Witness} {p : WPath} (hw : ws[k]? = some w) (hp : ps[k]? = some p) (hj : j < (mkTable ws g rk).columns.length) (x : Str) :
    cellWord (mkTable ws g rk) k j = some x ↔ ∃ (i : Nat) (v : VId), p.inner[i]? = some v ∧
      (w.tokens.map Token.str)[i]? = some x ∧ rkf v = j + 1 := by
  obtain ⟨row, hrow⟩ : ∃ row, (mkTable ws g rk).rows[k]? = some row := ⟨_, List.getElem?_eq_getElem (by
    rw [C.rows_length]; exact (List.getElem?_eq_some_iff.mp hp).1)⟩
  unfold cellWord
  rw [hrow, Option.bind_some]
  have hsg := C.segs_at hw hp
  constructor
  · intro h
    obtain ⟨l, h1, h2⟩ := Option.bind_eq_some_iff.mp h
    obtain ⟨v, t, h3, h4, rfl⟩ := (C.cellAt_iff hs hne hrow hp hj l).mp h1
    obtain ⟨i, hi⟩ := List.getElem?_of_mem h3
    refine ⟨i, v, by unfold WPath.inner; rw [List.getElem?_map, hi]; rfl, ?_, h4⟩
    have := congrArg (fun l => l[i]?) hsg
    simp only [List.getElem?_map, hi, Option.map_some] at this
    obtain ⟨t', h5, h6⟩ := Option.map_eq_some_iff.mp this.symm
    obtain rfl : t' = t := by simpa using h6
    rw [List.getElem?_map, h5]
    exact h2
  · rintro ⟨i, v, h1, h2, h3⟩
    unfold WPath.inner at h1
    rw [List.getElem?_map] at h1
    obtain ⟨⟨v', us⟩, hi, rfl⟩ := Option.map_eq_some_iff.mp h1
    have := congrArg (fun l => l[i]?) hsg
    simp only [List.getElem?_map, hi, Option.map_some] at this
    obtain ⟨t', h5, h6⟩ := Option.map_eq_some_iff.mp this.symm
    subst h6
    rw [List.getElem?_map, h5] at h2
    have := (C.cellAt_iff hs hne hrow hp hj [t'.str]).mpr ⟨v', t', List.mem_of_getElem? hi, h3, rfl⟩
    rw [this, Option.bind_some]
    exact h2

/-- The rank of the `k`-th vertex of a path. -/
def rankAt (rkf : VId → Nat) (p : WPath) (k : Nat) : Nat := rkf ((p.path[k]?).getD startV)

theorem rankAt_inner {rkf : VId → Nat} {p : WPath} {i : Nat} {v : VId} (h : p.inner[i]? = some v) :
    p.path[i + 1]? = some v ∧ rankAt rkf p (i + 1) = rkf v := by
  have : p.path[i + 1]? = some v := by
    unfold WPath.path
    rw [List.getElem?_cons_succ, List.getElem?_append_left (List.getElem?_eq_some_iff.mp h).1]
    exact h
  refine ⟨this, ?_⟩
  unfold rankAt
  rw [this]
  rfl

/-- The rank of a vertex on two paths is one more than that of its predecessors. -/
theorem Collated.step {a b : Witness} {p P : WPath} (C : Collated cc [a, b] false g [p, P] rk rkf ord m) {v : VId} (hv : v ∈ g.vertices)
    (h0 : v ≠ startV) : (∀ q ∈ [p, P], ∀ i, q.path[i + 1]? = some v → rankAt rkf q i + 1 ≤ rkf v) ∧
      ∃ q ∈ [p, P], ∃ i, q.path[i + 1]? = some v ∧ rkf v = rankAt rkf q i + 1 := by
  constructor
  · intro q hq i hi
    obtain ⟨u, hu⟩ : ∃ u, q.path[i]? = some u := ⟨_, List.getElem?_eq_getElem (by have := (List.getElem?_eq_some_iff.mp hi).1; omega)⟩
    have := C.lt ((C.ginv.edges_iff u v).mpr ⟨q, hq, consec_iff_getElem.mpr ⟨i, hu, hi⟩⟩)
    unfold rankAt
    rw [hu]
    exact this
  · have hpos : 0 < rkf v := by
      rcases Nat.eq_zero_or_pos (rkf v) with h | h
      · exact absurd ((C.start_rank (by simp) hv).mp h) h0
      · exact h
    obtain ⟨u, hu, hr⟩ := C.rank.isRank.pred hv hpos
    obtain ⟨q, hq, hc⟩ := (C.ginv.edges_iff u v).mp hu
    obtain ⟨i, h1, h2⟩ := consec_iff_getElem.mp hc
    refine ⟨q, hq, i, h2, ?_⟩
    unfold rankAt
    rw [h1]
    exact hr.symm

/-- The columns of the table of two witnesses, by rank. -/
theorem Collated.rankedColumns {a b : Witness} {p P : WPath} (C : Collated cc [a, b] false g [p, P] rk rkf ord m)
    (hs : ∀ w ∈ [a, b], w.sigil ≠ []) (L : List (Nat × Nat))
    (hL : ∀ i j, (∃ v, p.inner[i]? = some v ∧ P.inner[j]? = some v) ↔ (i, j) ∈ L)
    (hmark : ∀ j c, (mkTable [a, b] g rk).columns[j]? = some c → (c.variant = false ↔
      (∃ v, ∀ u ∈ g.vertices, dget rk.byVertex u = some (j + 1) ↔ u = v) ∧ ∀ w ∈ [a, b], ∃ ts, dget c.tokens w.sigil = some ts)) :
    RankedColumns (a.tokens.map Token.str) (b.tokens.map Token.str) (rankAt rkf p) (rankAt rkf P)
      (fun k => (((mkTable [a, b] g rk).columns[k - 1]?.map Column.variant).getD true, cellWord (mkTable [a, b] g rk) 0 (k - 1),
        cellWord (mkTable [a, b] g rk) 1 (k - 1))) L (mkTable [a, b] g rk).columns.length := by
  have hne : [a, b] ≠ [] := by simp
  have hcols := (C.columns_at hne).1
  have hbd := C.ginv.rank_bounds (C.ne hne) (h := rkf) (fun p hp => C.lt (u := p.1) (v := p.2) hp)
  have hlen : ∀ {k : Nat} {w : Witness} {q : WPath}, [a, b][k]? = some w → [p, P][k]? = some q →
      q.inner.length = (w.tokens.map Token.str).length := by
    intro k w q h1 h2
    have := congrArg List.length (C.segs_at h1 h2)
    simpa [WPath.inner] using this
  have hin : ∀ {q : WPath} {i : Nat} {v : VId}, q ∈ [p, P] → q.inner[i]? = some v → v ∈ g.vertices ∧ v ≠ startV ∧ v ≠ endV := by
    intro q i v hq hi
    obtain ⟨x, hx, rfl⟩ := List.mem_map.mp (List.mem_of_getElem? hi)
    have := C.ginv.segs_in q hq x hx
    exact ⟨this.1, this.2.1, this.2.2.1⟩
  have hget : ∀ {q : WPath} {i : Nat}, i < q.inner.length → ∃ v, q.inner[i]? = some v := fun h => ⟨_, List.getElem?_eq_getElem h⟩
  have hback : ∀ {q : WPath} {i : Nat} {v : VId}, q ∈ [p, P] → q.path[i + 1]? = some v → v ≠ endV → q.inner[i]? = some v := by
    intro q i v hq h1 h2
    unfold WPath.path at h1
    rw [List.getElem?_cons_succ] at h1
    by_cases hi : i < q.inner.length
    · rwa [List.getElem?_append_left hi] at h1
    · rw [List.getElem?_append_right (by omega)] at h1
      have := List.mem_of_getElem? h1
      simp only [List.mem_singleton] at this
      exact absurd this h2
  have huniq : ∀ {q : WPath} {i j : Nat} {v : VId}, q ∈ [p, P] → q.path[i]? = some v → q.path[j]? = some v → i = j := by
    intro q i j v hq
    exact getElem_unique (C.ginv.path_nodup hq)
  have hcell : ∀ {k : Nat} {w : Witness} {q : WPath}, [a, b][k]? = some w → [p, P][k]? = some q → ∀ i < (w.tokens.map Token.str).length,
      cellWord (mkTable [a, b] g rk) k (rankAt rkf q (i + 1) - 1) = (w.tokens.map Token.str)[i]? := by
    intro k w q h1 h2 i hi
    obtain ⟨v, hv⟩ := hget (q := q) (i := i) (by rw [hlen h1 h2]; exact hi)
    obtain ⟨x, hx⟩ : ∃ x, (w.tokens.map Token.str)[i]? = some x := ⟨_, List.getElem?_eq_getElem hi⟩
    have hq := List.mem_of_getElem? h2
    obtain ⟨h3, h4, h5⟩ := hin hq hv
    have b1 := (hbd v h3).1 h4
    have b2 := (hbd v h3).2 h5
    rw [hx, (rankAt_inner hv).2]
    exact (C.cellWord_iff hs hne h1 h2 (by omega) x).mpr ⟨i, v, hv, hx, by omega⟩
  have hnocell : ∀ {k : Nat} {w : Witness} {q : WPath}, [a, b][k]? = some w → [p, P][k]? = some q → ∀ r, 1 ≤ r →
      r ≤ (mkTable [a, b] g rk).columns.length → (∀ i < (w.tokens.map Token.str).length, rankAt rkf q (i + 1) ≠ r) →
      cellWord (mkTable [a, b] g rk) k (r - 1) = none := by
    intro k w q h1 h2 r hr1 hr2 hno
    cases hx : cellWord (mkTable [a, b] g rk) k (r - 1) with
    | none => rfl
    | some x =>
      obtain ⟨i, v, h3, h4, h5⟩ := (C.cellWord_iff hs hne h1 h2 (by omega) x).mp hx
      exact absurd ((rankAt_inner h3).2.trans (by omega)) (hno i (List.getElem?_eq_some_iff.mp h4).1)
  have hstep : ∀ {q q' : WPath}, q ∈ [p, P] → q' ∈ [p, P] → (∀ x ∈ [p, P], x = q ∨ x = q') → ∀ {i : Nat} {v : VId}, q.inner[i]? = some v →
      (∀ j : Nat, q'.inner[j]? ≠ some v) → rankAt rkf q (i + 1) = rankAt rkf q i + 1 := by
    intro q q' hq hq' hall i v hv hno
    obtain ⟨h1, h2, h3⟩ := hin hq hv
    obtain ⟨x, hx, n, h4, h5⟩ := (C.step h1 h2).2
    rw [(rankAt_inner hv).2, h5]
    rcases hall x hx with rfl | rfl
    · have := huniq hx h4 (rankAt_inner (rkf := rkf) hv).1
      rw [show n = i by omega]
    · exact absurd (hback hx h4 h3) (hno n)
  have hpm : p ∈ [p, P] := by simp
  have hPm : P ∈ [p, P] := by simp
  refine ⟨fun i hi => hcell (k := 0) rfl rfl i hi, fun i hi => hcell (k := 1) rfl rfl i hi, fun r => hnocell (k := 0) rfl rfl r,
    fun r => hnocell (k := 1) rfl rfl r, ?_, ?_, ?_, ?_, ?_, ?_⟩
  · intro k hk1 hk2
    have hj : k - 1 < (mkTable [a, b] g rk).columns.length := by omega
    obtain ⟨c, hc⟩ : ∃ c, (mkTable [a, b] g rk).columns[k - 1]? = some c := ⟨_, List.getElem?_eq_getElem hj⟩
    simp only [hc, Option.map_some, Option.getD_some]
    rw [hmark (k - 1) c hc, show k - 1 + 1 = k by omega]
    have htok : ∀ {n : Nat} {w : Witness} {q : WPath}, [a, b][n]? = some w → [p, P][n]? = some q →
        ((∃ ts, dget c.tokens w.sigil = some ts) ↔ ∃ (i : Nat) (v : VId), q.inner[i]? = some v ∧ rkf v = k) := by
      intro n w q h1 h2
      obtain ⟨row, hrow⟩ : ∃ row, (mkTable [a, b] g rk).rows[n]? = some row := ⟨_, List.getElem?_eq_getElem (by
        rw [C.rows_length]; exact (List.getElem?_eq_some_iff.mp h2).1)⟩
      obtain ⟨w', hw', _, hcs⟩ := row_at hrow
      rw [h1] at hw'
      obtain rfl := Option.some.inj hw'
      have hce : cellAt row (k - 1) = (dget c.tokens w.sigil).map (List.map Token.str) := by
        unfold cellAt
        rw [hcs, List.getElem?_map, hc]
        rfl
      constructor
      · rintro ⟨ts, hts⟩
        rw [hts] at hce
        obtain ⟨v, t, h3, h4, _⟩ := (C.cellAt_iff hs hne hrow h2 hj _).mp hce
        obtain ⟨i, hi⟩ := List.getElem?_of_mem h3
        exact ⟨i, v, by unfold WPath.inner; rw [List.getElem?_map, hi]; rfl, by omega⟩
      · rintro ⟨i, v, h3, h4⟩
        obtain ⟨⟨v', us⟩, hm, rfl⟩ := List.mem_map.mp (List.mem_of_getElem? h3)
        obtain ⟨t, ht⟩ := C.single rfl q (List.mem_of_getElem? h2) _ hm
        simp only at ht h4
        subst ht
        have := (C.cellAt_iff hs hne hrow h2 hj [t.str]).mpr ⟨v', t, hm, by omega, rfl⟩
        rw [hce] at this
        obtain ⟨ts, h5, _⟩ := Option.map_eq_some_iff.mp this
        exact ⟨ts, h5⟩
    constructor
    · rintro ⟨⟨v, hv⟩, hall⟩
      obtain ⟨i, v1, h1, h2⟩ := (htok (n := 0) rfl rfl).mp (hall a (by simp))
      obtain ⟨j, v2, h3, h4⟩ := (htok (n := 1) rfl rfl).mp (hall b (by simp))
      have e1 := (hv v1 (hin hpm h1).1).mp (by rw [C.rank.byVertex (hin hpm h1).1, h2])
      have e2 := (hv v2 (hin hPm h3).1).mp (by rw [C.rank.byVertex (hin hPm h3).1, h4])
      subst e1
      rw [e2] at h3
      exact ⟨(i, j), (hL i j).mp ⟨v1, h1, h3⟩, (rankAt_inner h1).2.trans h2⟩
    · rintro ⟨⟨i, j⟩, hl, hr⟩
      obtain ⟨v, h1, h2⟩ := (hL i j).mpr hl
      have hrv : rkf v = k := (rankAt_inner h1).2.symm.trans hr
      refine ⟨⟨v, ?_⟩, ?_⟩
      · intro u hu
        rw [C.rank.byVertex hu]
        constructor
        · intro hk
          have hk : rkf u = k := Option.some.inj hk
          have hu0 : u ≠ startV := by
            rintro rfl
            have := (C.start_rank hne hu).mpr rfl
            omega
          have hu1 : u ≠ endV := by rintro rfl; omega
          obtain ⟨q, hq, huq⟩ := C.ginv.cover u hu hu0 hu1
          have hinc := C.inner_increasing hq
          have hvq : v ∈ q.inner := by
            simp only [List.mem_cons, List.not_mem_nil, or_false] at hq
            rcases hq with rfl | rfl
            · exact List.mem_of_getElem? h1
            · exact List.mem_of_getElem? h2
          obtain ⟨n, hn⟩ := List.getElem?_of_mem huq
          obtain ⟨n', hn'⟩ := List.getElem?_of_mem hvq
          obtain ⟨q1, q2⟩ := List.getElem?_eq_some_iff.mp hn
          obtain ⟨q3, q4⟩ := List.getElem?_eq_some_iff.mp hn'
          rcases Nat.lt_trichotomy n n' with hlt | rfl | hlt
          · have := List.pairwise_iff_getElem.mp hinc n n' q1 q3 hlt
            rw [q2, q4] at this
            omega
          · rw [hn] at hn'
            exact Option.some.inj hn'
          · have := List.pairwise_iff_getElem.mp hinc n' n q3 q1 hlt
            rw [q2, q4] at this
            omega
        · rintro rfl
          rw [hrv]
      · intro w hw
        simp only [List.mem_cons, List.not_mem_nil, or_false] at hw
        rcases hw with rfl | rfl
        · exact (htok (n := 0) rfl rfl).mpr ⟨i, v, h1, hrv⟩
        · exact (htok (n := 1) rfl rfl).mpr ⟨j, v, h2, hrv⟩
  · intro i hi hno
    obtain ⟨v, hv⟩ := hget (q := p) (i := i) (by rw [hlen (k := 0) rfl rfl]; exact hi)
    exact hstep hpm hPm (by simp) hv (fun j hj => hno (i, j) ((hL i j).mp ⟨v, hv, hj⟩) rfl)
  · intro j hj hno
    obtain ⟨v, hv⟩ := hget (q := P) (i := j) (by rw [hlen (k := 1) rfl rfl]; exact hj)
    exact hstep hPm hpm (by intro x hx; simp at hx; tauto) hv (fun i hi => hno (i, j) ((hL i j).mp ⟨v, hi, hv⟩) rfl)
  · rintro ⟨i, j⟩ hl
    obtain ⟨v, h1, h2⟩ := (hL i j).mpr hl
    obtain ⟨h3, h4, h5⟩ := hin hpm h1
    obtain ⟨hle, x, hx, n, h6, h7⟩ := C.step h3 h4
    have l1 := hle p hpm i (rankAt_inner (rkf := rkf) h1).1
    have l2 := hle P hPm j (rankAt_inner (rkf := rkf) h2).1
    simp only
    rw [(rankAt_inner h1).2, (rankAt_inner h2).2]
    refine ⟨?_, rfl⟩
    simp only [List.mem_cons, List.not_mem_nil, or_false] at hx
    rcases hx with rfl | rfl
    · have := huniq hpm h6 (rankAt_inner (rkf := rkf) h1).1
      rw [show n = i by omega] at h7
      omega
    · have := huniq hPm h6 (rankAt_inner (rkf := rkf) h2).1
      rw [show n = j by omega] at h7
      omega
  · rintro ⟨i, j⟩ hl
    obtain ⟨v, h1, h2⟩ := (hL i j).mpr hl
    exact ⟨by rw [← hlen (k := 0) (q := p) rfl rfl]; exact (List.getElem?_eq_some_iff.mp h1).1,
      by rw [← hlen (k := 1) (q := P) rfl rfl]; exact (List.getElem?_eq_some_iff.mp h2).1⟩
  · have hend : ∀ q : WPath, q.path[q.inner.length + 1]? = some endV := by
      intro q
      unfold WPath.path
      rw [List.getElem?_cons_succ, List.getElem?_append_right (Nat.le_refl _)]
      simp
    obtain ⟨hle, x, hx, n, h6, h7⟩ := C.step C.ginv.end_mem (by decide)
    have l1 := hle p hpm _ (hend p)
    have l2 := hle P hPm _ (hend P)
    rw [← hlen (k := 0) (q := p) rfl rfl, ← hlen (k := 1) (q := P) rfl rfl]
    simp only [List.mem_cons, List.not_mem_nil, or_false] at hx
    rcases hx with rfl | rfl
    · have := huniq hpm h6 (hend _)
      rw [show n = x.inner.length by omega] at h7
      omega
    · have := huniq hPm h6 (hend _)
      rw [show n = x.inner.length by omega] at h7
      omega

/-- The cells of a row of an unsegmented table. -/
theorem Collated.row_words (C : Collated cc ws false g ps rk rkf ord m) (hs : ∀ w ∈ ws, w.sigil ≠ []) (hne : ws ≠ []) {k : Nat} {row : Row}
    (hrow : (mkTable ws g rk).rows[k]? = some row) :
    row.cells.map (Option.map (List.map Token.str)) =
      (List.range' 1 (mkTable ws g rk).columns.length).map (fun n => (cellWord (mkTable ws g rk) k (n - 1)).map (fun s => [s])) := by
  obtain ⟨w, hw, _, hcs⟩ := row_at hrow
  have hk : k < ps.length := by
    rw [← C.rows_length]; exact (List.getElem?_eq_some_iff.mp hrow).1
  obtain ⟨p, hp⟩ : ∃ p, ps[k]? = some p := ⟨_, List.getElem?_eq_getElem hk⟩
  apply List.ext_getElem?
  intro j
  rw [List.getElem?_map, List.getElem?_map]
  by_cases hj : j < (mkTable ws g rk).columns.length
  · rw [List.getElem?_range' hj, Option.map_some]
    simp only [Nat.one_mul, Nat.add_sub_cancel_left]
    obtain ⟨c, hc⟩ : ∃ c, row.cells[j]? = some c := ⟨_, List.getElem?_eq_getElem (by rw [hcs, List.length_map]; exact hj)⟩
    rw [hc, Option.map_some, Option.some.injEq]
    have hce : cellAt row j = c.map (List.map Token.str) := by
      unfold cellAt
      rw [hc]
      rfl
    rw [← hce]
    unfold cellWord
    rw [hrow, Option.bind_some]
    cases hx : cellAt row j with
    | none => rfl
    | some l =>
      obtain ⟨v, t, _, _, rfl⟩ := (C.cellAt_iff hs hne hrow hp hj l).mp hx
      rfl
  · rw [List.getElem?_eq_none (by rw [hcs, List.length_map]; omega), List.getElem?_eq_none (by rw [List.length_range']; omega)]
    rfl

end

/-- C102: the rows of the table of any two witnesses, with the marks of the columns, are those of the collation of their texts. -/
theorem C102_two_witnesses (env : Env) (hts : TopoSpec env.topo) (wA wB : Witness) (hv : Valid [wA, wB])
    (hs : ∀ w ∈ [wA, wB], w.sigil ≠ []) (o : Opts) (ho : ExactMatching o) (hf : o.pfilter = none) :
    ∃ t, collateTable env [wA, wB] o = .ok t ∧ markedStrings t = showsPairs o.segmentation (collation (strings wA) (strings wB)) := by
  have ho1 : ExactMatching { o with segmentation := false } := ⟨ho.astar, ho.detect, ho.near⟩
  obtain ⟨g, rk, a, b, p, P, rkf, ord, m, hab, h1, C, hA, hB, hL⟩ := linked_core env hts wA wB hv { o with segmentation := false } ho1 hf rfl
  have hne : [a, b] ≠ [] := by simp
  have hsi := indexed_sigla 0 [wA, wB]
  rw [hab] at hsi
  simp only [List.map_cons, List.map_nil, List.cons.injEq, and_true] at hsi
  have hs' : ∀ w ∈ [a, b], w.sigil ≠ [] := by
    rw [← hab]
    exact indexed_sigil_ne hs
  have hR := C.rankedColumns hs' (linked (strings wA) (strings wB)) hL (fun j c hc => by
    rw [C27_variant_iff env hts [wA, wB] [a, b] hv hs _ ho1 g rk h1 j c hc]
    simp only [List.mem_cons, List.not_mem_nil, or_false, forall_eq_or_imp, forall_eq]
    rw [hsi.1, hsi.2])
  rw [hA, hB] at hR
  have h0 : ∀ q : WPath, rankAt rkf q 0 = 0 := by
    intro q
    exact (C.start_rank hne C.ginv.start_mem).mpr rfl
  have hcols := hR.from (linked (strings wA) (strings wB)) 0 0 0 (by simp) (linked_rising _ _).1 (by simp) (Nat.zero_le _) (Nat.zero_le _)
    (h0 p) (h0 P)
  simp only [Nat.zero_add, Nat.sub_zero] at hcols
  change _ = collation (strings wA) (strings wB) at hcols
  have ht : collateTable env [wA, wB] { o with segmentation := false } = .ok (mkTable [a, b] g rk) := by
    unfold collateTable
    rw [h1]
    rfl
  have hms : markedStrings (mkTable [a, b] g rk) = showsPairs false (collation (strings wA) (strings wB)) := by
    have hlen : (mkTable [a, b] g rk).rows.length = 2 := by
      rw [C.rows_length]; rfl
    obtain ⟨r1, r2, hr⟩ : ∃ r1 r2, (mkTable [a, b] g rk).rows = [r1, r2] := by
      match (mkTable [a, b] g rk).rows, hlen with
      | [r1, r2], _ => exact ⟨r1, r2, rfl⟩
    have e1 := C.row_words hs' hne (k := 0) (row := r1) (by rw [hr]; rfl)
    have e2 := C.row_words hs' hne (k := 1) (row := r2) (by rw [hr]; rfl)
    have e3 : (mkTable [a, b] g rk).columns.map Column.variant = (List.range' 1 (mkTable [a, b] g rk).columns.length).map
        (fun n => ((mkTable [a, b] g rk).columns[n - 1]?.map Column.variant).getD true) := by
      apply List.ext_getElem?
      intro j
      rw [List.getElem?_map, List.getElem?_map]
      by_cases hj : j < (mkTable [a, b] g rk).columns.length
      · rw [List.getElem?_range' hj, Option.map_some]
        simp only [Nat.one_mul, Nat.add_sub_cancel_left]
        rw [List.getElem?_eq_getElem hj]
        rfl
      · rw [List.getElem?_eq_none (by omega), List.getElem?_eq_none (by rw [List.length_range']; omega)]
        rfl
    rw [markedStrings_eq]
    unfold tableSummary
    simp only
    rw [hr, e3]
    simp only [List.map_cons, List.map_nil]
    rw [e1, e2, List.zip_map', List.zip_map', ← hcols]
    simp [showsPairs, Function.comp_def]
  cases hseg : o.segmentation with
  | false =>
    have ho' : { o with segmentation := false } = o := by rw [← hseg]
    rw [ho'] at ht
    exact ⟨_, ht, hms⟩
  | true =>
    obtain ⟨t1, t', k1, k2, k3⟩ := C92_segmentation_merges_runs env hts wA wB hv hs o ho
    rw [ht] at k1
    obtain rfl := Except.ok.inj k1
    have ho' : { o with segmentation := true } = o := by rw [← hseg]
    rw [ho'] at k2
    refine ⟨t', k2, ?_⟩
    rw [markedStrings_merged k3, hms]
    rfl

/-- C102: what the rows and marks of the table of two witnesses are depends on their words alone, not on the sigla, the topological sort, the
other properties of the tokens or the layout. -/
theorem C102_words_only (env env' : Env) (hts : TopoSpec env.topo) (hts' : TopoSpec env'.topo) (wA wB wA' wB' : Witness)
    (hv : Valid [wA, wB]) (hv' : Valid [wA', wB']) (hs : ∀ w ∈ [wA, wB], w.sigil ≠ []) (hs' : ∀ w ∈ [wA', wB'], w.sigil ≠ []) (o o' : Opts)
    (ho : ExactMatching o) (ho' : ExactMatching o') (hf : o.pfilter = none) (hf' : o'.pfilter = none) (hseg : o.segmentation = o'.segmentation)
    (hA : strings wA = strings wA') (hB : strings wB = strings wB') :
    ∃ t t', collateTable env [wA, wB] o = .ok t ∧ collateTable env' [wA', wB'] o' = .ok t' ∧ markedStrings t = markedStrings t' := by
  obtain ⟨t, h1, h2⟩ := C102_two_witnesses env hts wA wB hv hs o ho hf
  obtain ⟨t', h3, h4⟩ := C102_two_witnesses env' hts' wA' wB' hv' hs' o' ho' hf'
  exact ⟨t, t', h1, h3, by rw [h2, h4, hA, hB, hseg]⟩

/-- The hypotheses are met: `x x y z` and `y x x x q`, where the words `x` of the first text are linked to the last words `x` of the second. -/
example : TopoSpec exampleEnv.topo ∧ Valid [wordsWitness "A" ["x", "x", "y", "z"], wordsWitness "B" ["y", "x", "x", "x", "q"]] ∧
    ExactMatching {} ∧ linked (strings (wordsWitness "A" ["x", "x", "y", "z"])) (strings (wordsWitness "B" ["y", "x", "x", "x", "q"])) =
      [(0, 2), (1, 3)] ∧
    collation (strings (wordsWitness "A" ["x", "x", "y", "z"])) (strings (wordsWitness "B" ["y", "x", "x", "x", "q"])) =
      [(true, none, some (S "y")), (true, none, some (S "x")), (false, some (S "x"), some (S "x")), (false, some (S "x"), some (S "x")),
        (true, some (S "y"), some (S "q")), (true, some (S "z"), none)] :=
  ⟨kahn_spec, valid_of_check (by decide) (by decide) (by decide) (by decide), ⟨rfl, rfl, rfl⟩, by decide +kernel, by decide +kernel⟩

/-- What the program makes of `the black cat` and `the white and black cat`, with segmentation. -/
example : ∃ t, collateTable exampleEnv [wordsWitness "A" ["the", "black", "cat"], wordsWitness "B" ["the", "white", "and", "black", "cat"]] {} =
      .ok t ∧ markedStrings t = [[(false, some [S "the"]), (true, none), (false, some [S "black", S "cat"])],
        [(false, some [S "the"]), (true, some [S "white", S "and"]), (false, some [S "black", S "cat"])]] := by
  obtain ⟨t, h1, h2⟩ := C102_two_witnesses exampleEnv kahn_spec (wordsWitness "A" ["the", "black", "cat"])
    (wordsWitness "B" ["the", "white", "and", "black", "cat"]) (valid_of_check (by decide) (by decide) (by decide) (by decide)) (by decide) {}
    ⟨rfl, rfl, rfl⟩ rfl
  exact ⟨t, h1, h2.trans (by decide +kernel)⟩

end CollateX
