import Verif.Props.Grouping
import Verif.Props.Places
import Verif.Props.WiderSegmented
/-
C117: the words on which all witnesses agree.
-/

namespace CollateX.Spec
open CollateX

/-- The tokens of a row in the columns that are not marked as variant. -/
def agreed (t : Table) (r : Row) : List Token := ((t.columns.zip r.cells).filter (fun x => !x.1.variant)).flatMap (fun x => x.2.getD [])

end CollateX.Spec

namespace CollateX
open Spec

theorem filter_flatMap_of {α β : Type} {A : α → Bool} {P : β → Bool} {F : α → List β} : ∀ {l : List α}, (∀ c ∈ l, ∀ t ∈ F c, A c = P t) →
    (l.filter A).flatMap F = (l.flatMap F).filter P
  | [], _ => rfl
  | c :: l, h => by
    have ih := filter_flatMap_of (A := A) (P := P) (F := F) (l := l) (fun c hc => h c (by simp [hc]))
    have hc := h c (by simp)
    rw [List.flatMap_cons, List.filter_append, ← ih]
    cases hA : A c with
    | true =>
      have : (F c).filter P = F c := List.filter_eq_self.mpr (fun t ht => by rw [← hc t ht, hA])
      rw [List.filter_cons_of_pos hA, List.flatMap_cons, this]
    | false =>
      have : (F c).filter P = [] := List.filter_eq_nil_iff.mpr (fun t ht => by rw [← hc t ht, hA]; simp)
      rw [List.filter_cons_of_neg (by simp [hA]), this]
      rfl

section
variable {cc : CharClass} {ws : List Witness} {g : VGraph} {ps : List WPath} {rk : Ranking} {rkf : VId → Nat} {ord : List VId} {m : Nat}
  {seg : Bool}

open Classical in
/-- They are the tokens that share their place with tokens of all witnesses. -/
theorem Collated.agreed_eq (C : Collated cc ws seg g ps rk rkf ord m) (hs : ∀ w ∈ ws, w.sigil ≠ []) (hne : ws ≠ [])
    (hmark : ∀ j c, (mkTable ws g rk).columns[j]? = some c → (c.variant = false ↔
      (∃ v, ∀ u ∈ g.vertices, dget rk.byVertex u = some (j + 1) ↔ u = v) ∧ ∀ w ∈ ws, ∃ ts, dget c.tokens w.sigil = some ts))
    {k : Nat} {row : Row} {p : WPath} (hr : (mkTable ws g rk).rows[k]? = some row) (hp : ps[k]? = some p) (hnd : p.text.Nodup) :
    agreed (mkTable ws g rk) row = p.text.filter (fun t => decide (∀ q ∈ ps, ∃ u, SamePlace p q t u)) := by
  obtain ⟨w, hw, _, hc⟩ := row_at hr
  obtain ⟨p', hp', hpw, _, hrow⟩ := C.row hw (hs w (List.mem_of_getElem? hw))
  rw [hp] at hp'
  obtain rfl := Option.some.inj hp'
  have hpm := List.mem_of_getElem? hp
  obtain ⟨hl, hcols⟩ := C.columns_at hne
  -- a cell of any witness
  have cell : ∀ {j : Nat} {c : Column} {q : WPath}, (mkTable ws g rk).columns[j]? = some c → q ∈ ps →
      ∀ ts, dget c.tokens q.sigil = some ts ↔ ∃ v, (v, ts) ∈ q.segs ∧ rkf v = j + 1 := by
    intro j c q hj hq ts
    have hlt := (List.getElem?_eq_some_iff.mp hj).1
    have hjm : j + 1 < m := by
      have := rank_end C.ginv (C.ne hne) C.rank
      omega
    have key := C.byRank.cell C.ginv hq (C.sigil_ne hs _ hq) (C.inner_increasing hq) ws.length hjm ts
    rw [← hcols j hlt, hj, Option.bind_some] at key
    rw [key]
    constructor
    · rintro ⟨⟨v, ts'⟩, h1, h2, rfl⟩
      exact ⟨v, h1, h2⟩
    · rintro ⟨v, h1, h2⟩
      exact ⟨(v, ts), h1, h2, rfl⟩
  unfold agreed
  have e1 : (mkTable ws g rk).columns.zip row.cells = (mkTable ws g rk).columns.map (fun c => (c, dget c.tokens w.sigil)) := by
    rw [hc]
    generalize (mkTable ws g rk).columns = l
    induction l with
    | nil => rfl
    | cons c l ih => rw [List.map_cons, List.map_cons, List.zip_cons_cons, ih]
  rw [e1, List.filter_map, List.flatMap_map]
  have e2 : p.text = (mkTable ws g rk).columns.flatMap (fun c => (dget c.tokens w.sigil).getD []) := by
    have : p.text = (p.segs.map Prod.snd).flatten := by unfold WPath.text; rw [List.flatMap_def]
    rw [this, ← hrow, List.filterMap_map]
    generalize (mkTable ws g rk).columns = l
    induction l with
    | nil => rfl
    | cons c l ih =>
      rw [List.filterMap_cons, List.flatMap_cons, ← ih]
      cases h : dget c.tokens w.sigil <;> simp [h]
  conv => rhs; rw [e2]
  refine filter_flatMap_of ?_
  intro c hcm t ht
  obtain ⟨j, hj⟩ := List.getElem?_of_mem hcm
  simp only [Function.comp]
  cases hd : dget c.tokens w.sigil with
  | none => rw [hd] at ht; simp at ht
  | some ts =>
    rw [hd, Option.getD_some] at ht
    rw [← hpw] at hd
    obtain ⟨v, hv, hvr⟩ := (cell hj hpm ts).mp hd
    have hvm := (C.ginv.segs_in p hpm _ hv).1
    have hin : ∀ {q : WPath} {u : VId} {us : List Token}, (u, us) ∈ q.segs → u ∈ q.path := by
      intro q u us h
      have : u ∈ q.inner := List.mem_map.mpr ⟨_, h, rfl⟩
      unfold WPath.path
      simp [this]
    have h1 : c.variant = false ↔ ∀ q ∈ ps, v ∈ q.inner := by
      rw [hmark j c hj]
      constructor
      · rintro ⟨⟨v0, hv0⟩, h2⟩ q hq
        obtain ⟨i, hi⟩ := List.getElem?_of_mem hq
        have hiw : i < ws.length := by rw [← C.length]; exact (List.getElem?_eq_some_iff.mp hi).1
        obtain ⟨q', hq', hqs, _⟩ := C.at (List.getElem?_eq_getElem hiw)
        rw [hi] at hq'
        obtain rfl := Option.some.inj hq'
        obtain ⟨us, hus⟩ := h2 _ (List.getElem_mem hiw)
        rw [← hqs] at hus
        obtain ⟨u, hu, hur⟩ := (cell hj hq us).mp hus
        have hum := (C.ginv.segs_in q hq _ hu).1
        have a1 := (hv0 v hvm).mp (by rw [C.rank.byVertex hvm, hvr])
        have a2 := (hv0 u hum).mp (by rw [C.rank.byVertex hum, hur])
        rw [a1, ← a2]
        exact List.mem_map.mpr ⟨_, hu, rfl⟩
      · intro hall
        refine ⟨⟨v, ?_⟩, ?_⟩
        · intro u hum
          rw [C.rank.byVertex hum]
          constructor
          · intro h
            have hru : rkf u = j + 1 := Option.some.inj h
            have hlt := (List.getElem?_eq_some_iff.mp hj).1
            have hbd := C.ginv.rank_bounds (C.ne hne) (h := rkf) (fun p hp => C.lt (u := p.1) (v := p.2) hp)
            have hu1 : u ≠ endV := by
              rintro rfl
              omega
            have hu0 : u ≠ startV := by
              rintro rfl
              have a := C.rank.isRank.pred (v := startV) C.ginv.start_mem (by omega)
              obtain ⟨u', hu', _⟩ := a
              obtain ⟨q, hq, hcq⟩ := (C.ginv.edges_iff _ _).mp hu'
              have hnd := C.ginv.path_nodup hq
              obtain ⟨i, _, hi⟩ := consec_iff_getElem.mp hcq
              have hi0 : q.path[0]? = some startV := rfl
              have := getElem_unique hnd hi0 hi
              omega
            obtain ⟨q, hq, hqu⟩ := C.ginv.cover u hum hu0 hu1
            have a1 : u ∈ q.path := by unfold WPath.path; simp [hqu]
            have a2 : v ∈ q.path := by unfold WPath.path; simp [hall q hq]
            exact C.same_rank hq a1 a2 (by omega)
          · rintro rfl
            rw [hvr]
        · intro w' hw'
          obtain ⟨i, hi⟩ := List.getElem?_of_mem hw'
          obtain ⟨q, hq, hqs, _⟩ := C.at hi
          obtain ⟨⟨v', us⟩, h2, h3⟩ := List.mem_map.mp (hall q (List.mem_of_getElem? hq))
          simp only at h3
          subst h3
          rw [← hqs]
          exact ⟨us, (cell hj (List.mem_of_getElem? hq) us).mpr ⟨v', h2, hvr⟩⟩
    have h2 : (∀ q ∈ ps, ∃ u, SamePlace p q t u) ↔ ∀ q ∈ ps, v ∈ q.inner := by
      refine forall₂_congr fun q hq => ?_
      constructor
      · rintro ⟨u, v', a, b, i, a1, a2, a3, _⟩
        have := seg_unique (l := p.segs) hnd hv a1 ht (List.mem_of_getElem? a3)
        have := (Prod.mk.inj this).1
        rw [this]
        exact List.mem_map.mpr ⟨_, a2, rfl⟩
      · intro h
        obtain ⟨⟨v', us⟩, a1, a2⟩ := List.mem_map.mp h
        simp only at a2
        subst a2
        obtain ⟨i, hi⟩ := List.getElem?_of_mem ht
        have hlen : ts.length = us.length := by
          have := congrArg List.length (C.uniform p hpm q hq v' ts us hv a1)
          simpa using this
        have hi' := (List.getElem?_eq_some_iff.mp hi).1
        exact ⟨us[i]'(by omega), v', ts, us, i, hv, a1, hi, List.getElem?_eq_getElem _⟩
    have h3 : (c.variant = false) ↔ ∀ q ∈ ps, ∃ u, SamePlace p q t u := h1.trans h2.symm
    cases hvar : c.variant with
    | false => exact (decide_eq_true (h3.mp hvar)).symm
    | true =>
      have : ¬ ∀ q ∈ ps, ∃ u, SamePlace p q t u := by
        rw [← h3, hvar]
        simp
      simp [this]

end

/-- The same of witnesses. -/
theorem agreed_of {env : Env} (hts : TopoSpec env.topo) {ws : List Witness} (hv : Valid ws) (hs : ∀ w ∈ ws, w.sigil ≠ []) {o : Opts}
    (ho : ExactMatching o) {g : VGraph} {ps : List WPath} {rk : Ranking} {rkf : VId → Nat} {ord : List VId} {m : Nat} {seg : Bool}
    (h : collateRanked env ws o = .ok (indexed 0 ws, g, rk)) (C : Collated env.cc (indexed 0 ws) seg g ps rk rkf ord m) {k : Nat} {row : Row}
    (hr : (mkTable (indexed 0 ws) g rk).rows[k]? = some row) :
    ∃ p w, ps[k]? = some p ∧ (indexed 0 ws)[k]? = some w ∧ p.text = w.tokens ∧ p.text.Nodup ∧
      (open Classical in agreed (mkTable (indexed 0 ws) g rk) row = p.text.filter (fun t => decide (∀ q ∈ ps, ∃ u, SamePlace p q t u))) := by
  obtain ⟨w, hw, _, _⟩ := row_at hr
  obtain ⟨p, hp, _, hpt⟩ := C.at hw
  have hnd : p.text.Nodup := by rw [hpt]; exact hv.tokens_nodup hw
  have hne : indexed 0 ws ≠ [] := by
    intro h0
    have := congrArg List.length h0
    rw [indexed_length] at this
    exact hv.ne (List.length_eq_zero_iff.mp this)
  exact ⟨p, w, hp, hw, hpt, hnd, C.agreed_eq (indexed_sigil_ne hs) hne (marks_indexed env hts ws hv hs o ho g rk h) hr hp hnd⟩

/-- C117: with and without segmentation, each witness has the same tokens in the columns that are not marked. -/
theorem C117_segmentation (env : Env) (hts : TopoSpec env.topo) (ws : List Witness) (hv : Valid ws) (hs : ∀ w ∈ ws, w.sigil ≠ [])
    (o : Opts) (ho : ExactMatching o) :
    ∃ t t', collateTable env ws { o with segmentation := false } = .ok t ∧ collateTable env ws { o with segmentation := true } = .ok t' ∧
      t.rows.length = t'.rows.length ∧
      ∀ (k : Nat) row row', t.rows[k]? = some row → t'.rows[k]? = some row' → agreed t row = agreed t' row' := by
  obtain ⟨g, ps, rk, rkf, ord, m, g', ps', rk', rkf', ord', m', h1, C, h2, C', G⟩ :=
    collateRanked_both env hts hv o ho.astar ho.detect ho.near
  refine ⟨mkTable (indexed 0 ws) g rk, mkTable (indexed 0 ws) g' rk', by unfold collateTable; rw [h1]; rfl, by unfold collateTable; rw [h2]; rfl,
    by rw [mkTable_rows, mkTable_rows, List.length_map, List.length_map], ?_⟩
  intro k row row' hr hr'
  obtain ⟨p, w, hp, hw, hpt, _, e⟩ := agreed_of hts hv hs (o := { o with segmentation := false }) ⟨ho.astar, ho.detect, ho.near⟩ h1 C hr
  obtain ⟨p', w', hp', hw', hpt', _, e'⟩ := agreed_of hts hv hs (o := { o with segmentation := true }) ⟨ho.astar, ho.detect, ho.near⟩ h2 C' hr'
  rw [hw] at hw'
  obtain rfl := Option.some.inj hw'
  rw [e, e', hpt, hpt']
  apply List.filter_congr
  intro t _
  rw [decide_eq_decide]
  have hsig : p'.sigil = p.sigil := by
    have := congrArg (fun l => l[k]?) G.sigils
    simpa [List.getElem?_map, hp, hp'] using this
  have hpm := List.mem_of_getElem? hp
  have hpm' := List.mem_of_getElem? hp'
  constructor
  · intro h q' hq'
    obtain ⟨q, hq, e1⟩ := mem_of_sigils G.sigils hq'
    obtain ⟨u, hu⟩ := h q hq
    exact ⟨u, (G.places p' hpm' q' hq' p hpm q hq hsig e1 t u).mpr hu⟩
  · intro h q hq
    obtain ⟨q', hq', e1⟩ := mem_of_sigils G.sigils.symm hq
    obtain ⟨u, hu⟩ := h q' hq'
    exact ⟨u, (G.places p' hpm' q' hq' p hpm q hq hsig e1.symm t u).mp hu⟩

/-- C117: all witnesses have the same words there. -/
theorem C117_same_words (env : Env) (hts : TopoSpec env.topo) (ws : List Witness) (hv : Valid ws) (hs : ∀ w ∈ ws, w.sigil ≠ [])
    (o : Opts) (ho : ExactMatching o) (t : Table) (h : collateTable env ws o = .ok t) (row row' : Row) (hr : row ∈ t.rows) (hr' : row' ∈ t.rows) :
    (agreed t row).map Token.str = (agreed t row').map Token.str := by
  have hl := ((C26_table_shape env hts ws hv hs o ho t h).2.1 row hr).1
  have hl' := ((C26_table_shape env hts ws hv hs o ho t h).2.1 row' hr').1
  have key : ∀ (j : Nat) c, t.columns[j]? = some c → c.variant = false →
      ∃ l : List Str, l ≠ [] ∧ ∀ row ∈ t.rows, ∃ ts, row.cells[j]? = some (some ts) ∧ ts.map Token.str = l :=
    fun j c hc hv' => C27_invariant_columns env hts ws hv hs o ho t h j c hc hv'
  have key' : ∀ (j : Nat) c, t.columns[j]? = some c → c.variant = false →
      ((row.cells[j]?).join.getD []).map Token.str = ((row'.cells[j]?).join.getD []).map Token.str := by
    intro j c hc hv'
    obtain ⟨l, _, hx⟩ := key j c hc hv'
    obtain ⟨ts, a1, a2⟩ := hx row hr
    obtain ⟨ts', b1, b2⟩ := hx row' hr'
    rw [a1, b1]
    simp [a2, b2]
  clear key
  unfold agreed
  generalize t.columns = cs at hl hl' key'
  generalize row.cells = a at hl key'
  generalize row'.cells = b at hl' key'
  induction cs generalizing a b with
  | nil => simp
  | cons c cs ih =>
    cases a with
    | nil => simp at hl
    | cons x a =>
      cases b with
      | nil => simp at hl'
      | cons y b =>
        have h1 := ih a (by simpa using hl) b (by simpa using hl') (fun j c hc hv => by
          have := key' (j + 1) c (by simpa using hc) hv
          simpa using this)
        have h2 := key' 0 c rfl
        rw [List.zip_cons_cons, List.zip_cons_cons, List.filter_cons, List.filter_cons]
        cases hc : c.variant with
        | true => simpa using h1
        | false =>
          have h2 := h2 hc
          simp only [Bool.not_false, if_true, List.flatMap_cons, List.map_append, h1]
          congr 1

theorem filter_sublist_of {α : Type} {P P0 : α → Bool} {f : α → Str} {l l0 : List α}
    (h : List.Forall₂ (fun a b => f a = f b ∧ (P a = true → P0 b = true)) l l0) : ((l.filter P).map f).Sublist ((l0.filter P0).map f) := by
  induction h with
  | nil => exact List.Sublist.refl _
  | @cons a b l l0 hab _ ih =>
    rw [List.filter_cons, List.filter_cons]
    by_cases ha : P a = true
    · rw [if_pos ha, if_pos (hab.2 ha), List.map_cons, List.map_cons, hab.1]
      exact ih.cons_cons _
    · rw [if_neg ha]
      split
      · exact ih.cons _
      · exact ih

/-- C117, as far as it holds: with one more witness, the words on which all agree are some of those on which the others agree, in the same order.
The condition: no collation of fewer than all (but two or more) of the earlier witnesses has two vertices with the same reading on one rank. -/
theorem C117_fewer_partial (env : Env) (hts : TopoSpec env.topo) (us : List Witness) (w : Witness) (hv : Valid (us ++ [w])) (hne : us ≠ [])
    (hsg : ∀ u ∈ us ++ [w], u.sigil ≠ []) (o : Opts) (ho : ExactMatching o) (hf : o.pfilter = none)
    (htw : ∀ m, 2 ≤ m → m < us.length → ∀ us' g rk,
      collateRanked env (us.take m) { o with segmentation := false } = .ok (us', g, rk) → Spec.TwinFree g rk) :
    ∃ t0 t, collateTable env us o = .ok t0 ∧ collateTable env (us ++ [w]) o = .ok t ∧
      ∀ (k : Nat) row0 row, t0.rows[k]? = some row0 → t.rows[k]? = some row →
        ((agreed t row).map Token.str).Sublist ((agreed t0 row0).map Token.str) := by
  have hvu : Valid us := by
    have := hv.take (n := us.length) (List.length_pos_iff.mpr hne)
    rwa [List.take_left] at this
  have hsu : ∀ u ∈ us, u.sigil ≠ [] := fun u hu => hsg u (List.mem_append_left _ hu)
  have unseg : ∃ t0 t, collateTable env us { o with segmentation := false } = .ok t0 ∧
      collateTable env (us ++ [w]) { o with segmentation := false } = .ok t ∧
      ∀ (k : Nat) row0 row, t0.rows[k]? = some row0 → t.rows[k]? = some row →
        ((agreed t row).map Token.str).Sublist ((agreed t0 row0).map Token.str) := by
    obtain ⟨g, rk, qs, P, rkf, ord, m, g0, rk0, qs0, rkf0, ord0, m0, k1, C, hlen, k2, C0, hinner, _, _⟩ := further_core hts hv hne hsg ho hf htw
    refine ⟨mkTable (indexed 0 us) g0 rk0, mkTable (indexed 0 (us ++ [w])) g rk, by unfold collateTable; rw [k2]; rfl,
      by unfold collateTable; rw [k1]; rfl, ?_⟩
    intro k row0 row hr0 hr
    obtain ⟨p, x, hp, hx, hpt, hnd, e⟩ := agreed_of hts hv hsg (o := { o with segmentation := false }) ⟨ho.astar, ho.detect, ho.near⟩ k1 C hr
    obtain ⟨p0, x0, hp0, hx0, hpt0, hnd0, e0⟩ := agreed_of hts hvu hsu (o := { o with segmentation := false }) ⟨ho.astar, ho.detect, ho.near⟩ k2 C0 hr0
    have hk0 : k < qs0.length := (List.getElem?_eq_some_iff.mp hp0).1
    have hll : qs.length = qs0.length := by simpa using congrArg List.length hinner
    have hpq : qs[k]? = some p := by rwa [List.getElem?_append_left (by omega)] at hp
    have hsame : p.inner = p0.inner := by
      have := congrArg (fun l => l[k]?) hinner
      simpa [List.getElem?_map, hpq, hp0] using this
    have hpm := List.mem_of_getElem? hp
    have hpm0 := List.mem_of_getElem? hp0
    have hst : p.text.map Token.str = p0.text.map Token.str := by
      rw [hpt, hpt0]
      have a1 := congrArg (fun l => l[k]?) (indexed_tokenStrings (us ++ [w]))
      have a2 := congrArg (fun l => l[k]?) (indexed_tokenStrings us)
      have hku : k < us.length := by omega
      simp only [List.getElem?_map, hx, Option.map_some] at a1
      simp only [List.getElem?_map, hx0, Option.map_some] at a2
      rw [List.getElem?_append_left hku, ← a2] at a1
      exact Option.some.inj a1
    rw [e, e0]
    apply filter_sublist_of
    rw [List.forall₂_iff_get]
    have hl : p.text.length = p0.text.length := by simpa using congrArg List.length hst
    refine ⟨hl, ?_⟩
    intro i hi hi0
    simp only [List.get_eq_getElem, decide_eq_true_eq]
    refine ⟨?_, ?_⟩
    · have := congrArg (fun l => l[i]?) hst
      simpa [List.getElem?_map, List.getElem?_eq_getElem hi, List.getElem?_eq_getElem hi0] using this
    · intro hall q0 hq0
      obtain ⟨v, hv1⟩ := single_at (C.single rfl p hpm) (List.getElem?_eq_getElem hi)
      obtain ⟨v0, hv0⟩ := single_at (C0.single rfl p0 hpm0) (List.getElem?_eq_getElem hi0)
      have hvv : v = v0 := by
        have a1 : p.inner[i]? = some v := by unfold WPath.inner; rw [List.getElem?_map, hv1]; rfl
        have a2 : p0.inner[i]? = some v0 := by unfold WPath.inner; rw [List.getElem?_map, hv0]; rfl
        rw [hsame, a2] at a1
        exact (Option.some.inj a1).symm
      subst hvv
      have : q0.inner ∈ qs.map WPath.inner := by rw [hinner]; exact List.mem_map_of_mem hq0
      obtain ⟨q, hq, hqe⟩ := List.mem_map.mp this
      obtain ⟨u, v', a, b, j, b1, b2, b3, _⟩ := hall q (List.mem_append_left _ hq)
      have hvv := seg_unique (l := p.segs) hnd (List.mem_of_getElem? hv1) b1 (by simp) (List.mem_of_getElem? b3)
      have hvv := (Prod.mk.inj hvv).1
      have hvq : v ∈ q0.inner := by rw [← hqe, hvv]; exact List.mem_map.mpr ⟨_, b2, rfl⟩
      obtain ⟨⟨v2, us2⟩, c1, c2⟩ := List.mem_map.mp hvq
      simp only at c2
      subst c2
      obtain ⟨u0, hu0⟩ := C0.single rfl q0 hq0 _ c1
      simp only at hu0
      subst hu0
      exact ⟨u0, v2, [p0.text[i]], [u0], 0, List.mem_of_getElem? hv0, c1, rfl, rfl⟩
  cases hseg : o.segmentation with
  | false =>
    have ho' : { o with segmentation := false } = o := by cases o; simp_all
    rwa [ho'] at unseg
  | true =>
    have ho' : { o with segmentation := true } = o := by cases o; simp_all
    obtain ⟨t0, t, h1, h2, h3⟩ := unseg
    obtain ⟨s0, s0', a1, a2, a3, a4⟩ := C117_segmentation env hts us hvu hsu o ho
    obtain ⟨s, s', b1, b2, b3, b4⟩ := C117_segmentation env hts (us ++ [w]) hv hsg o ho
    rw [ho'] at a2 b2
    rw [h1] at a1
    rw [h2] at b1
    obtain rfl := Except.ok.inj a1
    obtain rfl := Except.ok.inj b1
    refine ⟨s0', s', a2, b2, ?_⟩
    intro k row0 row hr0 hr
    have hk0 := (List.getElem?_eq_some_iff.mp hr0).1
    have hk := (List.getElem?_eq_some_iff.mp hr).1
    have e0 : t0.rows[k]? = some (t0.rows[k]'(by omega)) := List.getElem?_eq_getElem _
    have e1 : t.rows[k]? = some (t.rows[k]'(by omega)) := List.getElem?_eq_getElem _
    rw [← a4 k _ _ e0 hr0, ← b4 k _ _ e1 hr]
    exact h3 k _ _ e0 e1

/-- Up to two earlier witnesses there is no condition on the collation. -/
theorem C117_third_partial (env : Env) (hts : TopoSpec env.topo) (us : List Witness) (w : Witness) (hv : Valid (us ++ [w])) (hne : us ≠ [])
    (h2 : us.length ≤ 2) (hsg : ∀ u ∈ us ++ [w], u.sigil ≠ []) (o : Opts) (ho : ExactMatching o) (hf : o.pfilter = none) :
    ∃ t0 t, collateTable env us o = .ok t0 ∧ collateTable env (us ++ [w]) o = .ok t ∧
      ∀ (k : Nat) row0 row, t0.rows[k]? = some row0 → t.rows[k]? = some row →
        ((agreed t row).map Token.str).Sublist ((agreed t0 row0).map Token.str) :=
  C117_fewer_partial env hts us w hv hne hsg o ho hf (by intro m h3 h4; omega)

/-- With three earlier witnesses it is enough that the second repeats no word. -/
theorem C117_fourth_partial (env : Env) (hts : TopoSpec env.topo) (us : List Witness) (w : Witness) (hv : Valid (us ++ [w])) (hne : us ≠ [])
    (h3 : us.length ≤ 3) (hsg : ∀ u ∈ us ++ [w], u.sigil ≠ []) (hrep : ∀ w, us[1]? = some w → NoRepeats w) (o : Opts) (ho : ExactMatching o)
    (hf : o.pfilter = none) :
    ∃ t0 t, collateTable env us o = .ok t0 ∧ collateTable env (us ++ [w]) o = .ok t ∧
      ∀ (k : Nat) row0 row, t0.rows[k]? = some row0 → t.rows[k]? = some row →
        ((agreed t row).map Token.str).Sublist ((agreed t0 row0).map Token.str) :=
  C117_fewer_partial env hts us w hv hne hsg o ho hf (by
    intro n h4 h5 us' g rk h
    have hvu : Valid us := by
      have := hv.take (n := us.length) (List.length_pos_iff.mpr hne)
      rwa [List.take_left] at this
    exact twinFree_three hts hvu (fun w hw => hsg w (List.mem_append_left _ hw)) hrep
      (o := { o with segmentation := false }) ⟨ho.astar, ho.detect, ho.near⟩ hf rfl (by omega) (by omega) h)

/-- The agreed words of every row, as text. -/
def agreedTexts (t : Table) : List (List Str) := t.rows.map (fun r => (agreed t r).map Token.str)

/-- A case of C117: with the third witness, `black` is no longer in all. -/
example : ∃ t0 t, collateTable exampleEnv (segWitnesses.take 2) {} = .ok t0 ∧ collateTable exampleEnv segWitnesses {} = .ok t ∧
    agreedTexts t0 = List.replicate 2 (["the", "black", "cat", "ran", "home"].map String.toList) ∧
    agreedTexts t = List.replicate 3 (["the", "cat", "ran", "home"].map String.toList) ∧
    ∀ (k : Nat) row0 row, t0.rows[k]? = some row0 → t.rows[k]? = some row →
      ((agreed t row).map Token.str).Sublist ((agreed t0 row0).map Token.str) := by
  obtain ⟨t0, t, h1, h2, h3⟩ := C117_third_partial exampleEnv kahn_spec (segWitnesses.take 2)
    (wordsWitness "C" ["the", "white", "and", "cat", "ran", "home"])
    (valid_of_check (by decide) (by decide) (by decide) (by decide)) (by decide) (by decide) (by decide) {} ⟨rfl, rfl, rfl⟩ rfl
  have e1 : (collateTable exampleEnv (segWitnesses.take 2) {}).map agreedTexts =
      .ok (List.replicate 2 (["the", "black", "cat", "ran", "home"].map String.toList)) := by decide +kernel
  have e2 : (collateTable exampleEnv segWitnesses {}).map agreedTexts =
      .ok (List.replicate 3 (["the", "cat", "ran", "home"].map String.toList)) := by decide +kernel
  have h2' : collateTable exampleEnv segWitnesses {} = .ok t := h2
  rw [h1] at e1
  rw [h2'] at e2
  exact ⟨t0, t, h1, h2', Except.ok.inj e1, Except.ok.inj e2, h3⟩

/-- The same witnesses with and without segmentation: the same words, in more columns. -/
example : ∃ t t', collateTable exampleEnv segWitnesses { segmentation := false } = .ok t ∧ collateTable exampleEnv segWitnesses {} = .ok t' ∧
    t.columns.length = 7 ∧ t'.columns.length = 4 ∧ agreedTexts t = agreedTexts t' := by
  have e1 : (collateTable exampleEnv segWitnesses { segmentation := false }).map (fun t => (t.columns.length, agreedTexts t)) =
      .ok (7, List.replicate 3 (["the", "cat", "ran", "home"].map String.toList)) := by decide +kernel
  have e2 : (collateTable exampleEnv segWitnesses {}).map (fun t => (t.columns.length, agreedTexts t)) =
      .ok (4, List.replicate 3 (["the", "cat", "ran", "home"].map String.toList)) := by decide +kernel
  obtain ⟨t, t', h1, h2, _⟩ := C117_segmentation exampleEnv kahn_spec segWitnesses
    (valid_of_check (by decide) (by decide) (by decide) (by decide)) (by decide) {} ⟨rfl, rfl, rfl⟩
  have h1' : collateTable exampleEnv segWitnesses { segmentation := false } = .ok t := h1
  have h2' : collateTable exampleEnv segWitnesses {} = .ok t' := h2
  rw [h1'] at e1
  rw [h2'] at e2
  have e1 := Prod.mk.inj (Except.ok.inj e1)
  have e2 := Prod.mk.inj (Except.ok.inj e2)
  exact ⟨t, t', h1', h2', e1.1, e2.1, by rw [e1.2, e2.2]⟩

/-- Five witnesses of which the third and fourth are joined differently when there is a sixth. -/
def unagreedWitnesses : List Witness := [wordsWitness "A" ["z", "z", "a", "b", "c", "E"], wordsWitness "B" ["d", "e", "f", "g", "z", "x", "E"],
  wordsWitness "C" ["p", "q", "r", "z", "z", "a", "b", "c", "E"], wordsWitness "D" ["r", "z", "p", "z", "z", "E"],
  wordsWitness "E" ["E", "a", "z", "q", "E", "x"], wordsWitness "F" ["~", "E"]]

/-- C117 is false without the condition: the first five witnesses agree on no word, all six agree on `E`. -/
theorem C117_more : Valid unagreedWitnesses ∧ ∃ t0 t, collateTable exampleEnv (unagreedWitnesses.take 5) { segmentation := false } = .ok t0 ∧
    collateTable exampleEnv unagreedWitnesses { segmentation := false } = .ok t ∧
    agreedTexts t0 = List.replicate 5 [] ∧ agreedTexts t = List.replicate 6 [['E']] := by
  refine ⟨valid_of_check (by decide) (by decide) (by decide) (by decide), ?_⟩
  have e1 : (collateTable exampleEnv (unagreedWitnesses.take 5) { segmentation := false }).map agreedTexts = .ok (List.replicate 5 []) := by
    decide +kernel
  have e2 : (collateTable exampleEnv unagreedWitnesses { segmentation := false }).map agreedTexts = .ok (List.replicate 6 [['E']]) := by
    decide +kernel
  cases h1 : collateTable exampleEnv (unagreedWitnesses.take 5) { segmentation := false } with
  | error e => rw [h1] at e1; cases e1
  | ok t0 =>
    cases h2 : collateTable exampleEnv unagreedWitnesses { segmentation := false } with
    | error e => rw [h2] at e2; cases e2
    | ok t =>
      rw [h1] at e1
      rw [h2] at e2
      exact ⟨t0, t, rfl, rfl, Except.ok.inj e1, Except.ok.inj e2⟩

end CollateX
