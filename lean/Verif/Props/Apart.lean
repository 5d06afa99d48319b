import Verif.Proofs.Apart
import Verif.Props.Fields
/-
Witnesses with nothing in common stay apart: C76.
-/

namespace CollateX
open Spec

/-! ### What is claimed -/

/-- No token of a witness has the string of a token of another witness. -/
def Spec.NothingInCommon (ws : List Witness) : Prop :=
  ∀ (k l : Nat) (w x : Witness), ws[k]? = some w → ws[l]? = some x → k ≠ l → ∀ t ∈ w.tokens, ∀ u ∈ x.tokens, t.str ≠ u.str

/-- The table sets the witnesses side by side: there are as many columns as the longest witness has tokens, each row has the tokens
of its witness one by one from the left and is empty after them, and the columns are variant unless there is only one witness. -/
structure Spec.OneByOne (ws : List Witness) (t : Table) : Prop where
  wide : ∀ w ∈ ws, w.tokens.length ≤ t.columns.length
  tight : ∃ w ∈ ws, w.tokens.length = t.columns.length
  rows : t.rows.length = ws.length
  row : ∀ (k : Nat) (w : Witness) (row : Row), ws[k]? = some w → t.rows[k]? = some row → row.header = w.sigil ∧
    ∃ us, List.Forall₂ SameToken w.tokens us ∧
      row.cells = us.map (fun u => some [u]) ++ List.replicate (t.columns.length - us.length) none
  variant : ∀ c ∈ t.columns, c.variant = true ↔ ws.length ≠ 1

/-- The table has one column, with the whole of every witness. -/
structure Spec.InOneColumn (ws : List Witness) (t : Table) : Prop where
  one : t.columns.length = 1
  rows : t.rows.length = ws.length
  row : ∀ (k : Nat) (w : Witness) (row : Row), ws[k]? = some w → t.rows[k]? = some row → row.header = w.sigil ∧
    ∃ us, List.Forall₂ SameToken w.tokens us ∧ row.cells = [some us]
  variant : ∀ c ∈ t.columns, c.variant = true ↔ ws.length ≠ 1

/-! ### From the paths -/

theorem apart_table (env : Env) (hts : TopoSpec env.topo) {ws : List Witness} (hv : Valid ws) (hs : ∀ w ∈ ws, w.sigil ≠ [])
    {o : Opts} (ho : ExactMatching o) {g : VGraph} {ps : List WPath} {rk : Ranking} {rkf : VId → Nat} {ord : List VId} {m : Nat}
    (h : collateRanked env ws o = .ok (indexed 0 ws, g, rk)) (C : Collated env.cc (indexed 0 ws) o.segmentation g ps rk rkf ord m)
    (ha : Apart ps) :
    (o.segmentation = false → OneByOne ws (mkTable (indexed 0 ws) g rk)) ∧
      (o.segmentation = true → InOneColumn ws (mkTable (indexed 0 ws) g rk)) := by
  obtain ⟨t1, ⟨p0, hp0, t2⟩, t3, t4⟩ := ha.table env hts hv hs ho h C
  have hrows : (mkTable (indexed 0 ws) g rk).rows.length = ws.length := by
    rw [mkTable_rows, List.length_map, indexed_length]
  have hsig : ∀ {k : Nat} {w w' : Witness}, ws[k]? = some w → (indexed 0 ws)[k]? = some w' → w'.sigil = w.sigil := by
    intro k w w' hw hw'
    obtain ⟨w0, hw0, e, _⟩ := indexed_strs ws hw'
    rw [hw] at hw0
    obtain rfl := Option.some.inj hw0
    exact e
  constructor
  · intro hseg
    have hsegs : ∀ p ∈ ps, p.segs.map Prod.snd = p.text.map (fun t => [t]) := by
      intro p hp
      have hsing := C.single hseg p hp
      unfold WPath.text
      generalize p.segs = l at hsing
      induction l with
      | nil => rfl
      | cons q l ih =>
        obtain ⟨t, ht⟩ := hsing q (by simp)
        simp only [List.map_cons, List.flatMap_cons, ht, List.cons_append, List.nil_append]
        rw [ih (fun q hq => hsing q (by simp [hq]))]
    have hlen : ∀ p ∈ ps, p.segs.length = p.text.length := by
      intro p hp
      have := congrArg List.length (hsegs p hp)
      simpa using this
    have hpair : ∀ {k : Nat} {w : Witness}, ws[k]? = some w → ∃ p, ps[k]? = some p ∧ p.segs.length = w.tokens.length := by
      intro k w hw
      have hk : k < (indexed 0 ws).length := by rw [indexed_length]; exact (List.getElem?_eq_some_iff.mp hw).1
      obtain ⟨p, hp, _, hpt⟩ := C.at (List.getElem?_eq_getElem hk)
      refine ⟨p, hp, ?_⟩
      rw [hlen p (List.mem_of_getElem? hp), hpt]
      exact (sameTokens_at h hw (List.getElem?_eq_getElem hk)).length_eq.symm
    refine ⟨?_, ?_, hrows, ?_, t3⟩
    · intro w hw
      obtain ⟨k, hk⟩ := List.getElem?_of_mem hw
      obtain ⟨p, hp, e⟩ := hpair hk
      rw [← e]
      exact t1 p (List.mem_of_getElem? hp)
    · obtain ⟨k, hk⟩ := List.getElem?_of_mem hp0
      have hkl : k < ws.length := by
        have := (List.getElem?_eq_some_iff.mp hk).1
        rw [C.length, indexed_length] at this
        exact this
      obtain ⟨p, hp, e⟩ := hpair (List.getElem?_eq_getElem hkl)
      rw [hk] at hp
      obtain rfl := Option.some.inj hp
      exact ⟨ws[k], List.getElem_mem hkl, by rw [← e]; exact t2⟩
    · intro k w row hw hrow
      obtain ⟨p, w', hp, hw', hpt, hh, hc⟩ := t4 k row hrow
      refine ⟨by rw [hh, hsig hw hw'], w'.tokens, sameTokens_at h hw hw', ?_⟩
      rw [hc, hsegs p (List.mem_of_getElem? hp), hlen p (List.mem_of_getElem? hp), hpt, List.map_map]
      rfl
  · intro hseg
    have hone := fun {p : WPath} (hp : p ∈ ps) => ha.one C.ginv (C.maximal hseg) hp
    have hcol : (mkTable (indexed 0 ws) g rk).columns.length = 1 := by
      obtain ⟨q, hq⟩ := hone hp0
      rw [← t2, hq]; rfl
    refine ⟨hcol, hrows, ?_, t3⟩
    intro k w row hw hrow
    obtain ⟨p, w', hp, hw', hpt, hh, hc⟩ := t4 k row hrow
    obtain ⟨q, hq⟩ := hone (List.mem_of_getElem? hp)
    refine ⟨by rw [hh, hsig hw hw'], w'.tokens, sameTokens_at h hw hw', ?_⟩
    rw [hc, hcol, hq, ← hpt]
    simp [WPath.text, hq]

theorem apart_of_strings (env : Env) {ws : List Witness} (hc : NothingInCommon ws) {seg : Bool} {g : VGraph} {ps : List WPath}
    {rk : Ranking} {rkf : VId → Nat} {ord : List VId} {m : Nat} (C : Collated env.cc (indexed 0 ws) seg g ps rk rkf ord m) : Apart ps := by
  intro k l p q hp hq hkl v h1 h2
  obtain ⟨⟨v1, ts⟩, hts, rfl⟩ := List.mem_map.mp h1
  obtain ⟨⟨v2, us⟩, hus, e⟩ := List.mem_map.mp h2
  simp only at e
  subst e
  have hpm := List.mem_of_getElem? hp
  have hqm := List.mem_of_getElem? hq
  have hU := C.uniform p hpm q hqm _ ts us hts hus
  have hne : ts ≠ [] := (C.ginv.segs_in p hpm _ hts).2.2.2
  match ts, us, hU, hne with
  | a :: ts, b :: us, hU, _ =>
    simp only [List.map_cons, List.cons.injEq] at hU
    have find : ∀ {k : Nat} {p : WPath} {v : VId} {a : Token} {ts : List Token}, ps[k]? = some p → (v, a :: ts) ∈ p.segs →
        ∃ w t, ws[k]? = some w ∧ t ∈ w.tokens ∧ t.str = a.str := by
      intro k p v a ts hp hm
      have hk : k < (indexed 0 ws).length := by
        have := (List.getElem?_eq_some_iff.mp hp).1
        rw [C.length] at this
        exact this
      obtain ⟨p', hp', _, hpt⟩ := C.at (List.getElem?_eq_getElem hk)
      rw [hp] at hp'
      obtain rfl := Option.some.inj hp'
      obtain ⟨w0, hw0, _, hstr⟩ := indexed_strs ws (List.getElem?_eq_getElem hk)
      have ha : a ∈ (indexed 0 ws)[k].tokens := by
        rw [← hpt]
        exact List.mem_flatMap.mpr ⟨_, hm, by simp⟩
      have : a.str ∈ w0.tokens.map Token.str := by
        rw [← hstr]
        exact List.mem_map.mpr ⟨a, ha, rfl⟩
      obtain ⟨t, ht, hte⟩ := List.mem_map.mp this
      exact ⟨w0, t, hw0, ht, hte⟩
    obtain ⟨w, t, hw, ht, hte⟩ := find hp hts
    obtain ⟨x, u, hx, hu, hue⟩ := find hq hus
    exact hc k l w x hw hx hkl t ht u hu (by rw [hte, hue, hU.1])

/-! ### The theorems -/

/-- C76. Witnesses without a string in common are not aligned at all. Without segmentation the table sets them side by side, token by
token from the left, in as many columns as the longest has tokens; with segmentation there is a single column with the whole of every
witness. Every column is marked variant (unless there is only one witness). -/
theorem C76_nothing_in_common (env : Env) (hts : TopoSpec env.topo) (ws : List Witness) (hv : Valid ws)
    (hs : ∀ w ∈ ws, w.sigil ≠ []) (hc : NothingInCommon ws) (o : Opts) (ho : ExactMatching o) :
    ∃ t, collateTable env ws o = .ok t ∧ (o.segmentation = false → OneByOne ws t) ∧ (o.segmentation = true → InOneColumn ws t) := by
  obtain ⟨g, ps, rk, rkf, ord, m, h, C⟩ := collateRanked_ok env hts hv o ho.astar ho.detect ho.near
  refine ⟨mkTable (indexed 0 ws) g rk, ?_, apart_table env hts hv hs ho h C (apart_of_strings env hc C)⟩
  unfold collateTable
  rw [h]; rfl

/-- C76 for filters. A filter that accepts nothing has the same effect, whatever the witnesses have in common. -/
theorem C76_reject_all (env : Env) (hts : TopoSpec env.topo) (ws : List Witness) (hv : Valid ws)
    (hs : ∀ w ∈ ws, w.sigil ≠ []) (o : Opts) (ho : ExactMatching o) (hf : o.pfilter = some (fun _ _ => false)) :
    ∃ t, collateTable env ws o = .ok t ∧ (o.segmentation = false → OneByOne ws t) ∧ (o.segmentation = true → InOneColumn ws t) := by
  have apart : ∀ {us : List Witness} {ps : List WPath}, AllAsked (fun _ _ => false) us ps → Apart ps := by
    intro us ps ha
    have key : ∀ (k l : Nat) (p q : WPath), ps[k]? = some p → ps[l]? = some q → k < l → ∀ v, v ∈ p.inner → v ∉ q.inner := by
      intro k l p q hp hq hkl v h1 h2
      obtain ⟨⟨v', ts⟩, hts, rfl⟩ := List.mem_map.mp h2
      obtain ⟨i, hi⟩ := List.getElem?_of_mem hts
      obtain ⟨_, _, _, _, _, _, _, _, _, _, _, _, _, _, _, _, _, _, ⟨_, _, _, _, hfalse⟩, _⟩ := ha l i v' ts q hq hi ⟨k, p, hkl, hp, h1⟩
      cases hfalse
    intro k l p q hp hq hkl v h1 h2
    rcases Nat.lt_or_gt_of_ne hkl with hlt | hlt
    · exact key k l p q hp hq hlt v h1 h2
    · exact key l k q p hq hp hlt v h2 h1
  obtain ⟨g, ps, rk, rkf, ord, m, h, C, ha⟩ := collateRanked_inv env hts hv o ho.astar ho.detect ho.near
    (Q := fun ti _ ps => AllAsked (fun _ _ => false) ti.ws ps) (R := fun _ ps => Apart ps)
    (fun ti hti L B => by
      refine ⟨by rw [hf]; exact allAsked_step L, ?_, fun s ps _ _ h => apart h⟩
      intro w s _ _ l i v us P hP _ hsh
      obtain ⟨k, p, hk, _⟩ := hsh
      have := (List.getElem?_eq_some_iff.mp hP).1
      simp at this; omega)
    (fun _ => apart_join env.cc)
  refine ⟨mkTable (indexed 0 ws) g rk, ?_, apart_table env hts hv hs ho h C ha⟩
  unfold collateTable
  rw [h]; rfl

/-! ### Concrete cases -/

/-- Three witnesses without a string in common; the second has a repeated word. -/
def strangers : List Witness := [wordsWitness "A" ["a", "b"], wordsWitness "B" ["c", "d", "c"], wordsWitness "C" ["e"]]

theorem strangers_valid : Valid strangers :=
  valid_of_check (by decide) (by decide) (by decide) (by decide)

theorem strangers_apart : NothingInCommon strangers := by
  intro k l w x hw hx hkl
  have hk : k < 3 := (List.getElem?_eq_some_iff.mp hw).1
  have hl : l < 3 := (List.getElem?_eq_some_iff.mp hx).1
  have hall : ∀ i ∈ List.range 3, ∀ j ∈ List.range 3, i ≠ j → ∀ s ∈ (strangers.getD i ⟨[], []⟩).tokens.map Token.str,
      s ∉ (strangers.getD j ⟨[], []⟩).tokens.map Token.str := by decide
  have := hall k (List.mem_range.mpr hk) l (List.mem_range.mpr hl) hkl
  rw [List.getD_eq_getElem?_getD, List.getD_eq_getElem?_getD, hw, hx] at this
  exact fun t ht u hu e => this t.str (List.mem_map.mpr ⟨t, ht, rfl⟩) (List.mem_map.mpr ⟨u, hu, e.symm⟩)

example : ∃ t, collateTable exampleEnv strangers { segmentation := false } = .ok t ∧ t.columns.length = 3 ∧ OneByOne strangers t := by
  obtain ⟨t, h1, h2, _⟩ := C76_nothing_in_common exampleEnv kahn_spec strangers strangers_valid (by decide) strangers_apart
    { segmentation := false } ⟨rfl, rfl, rfl⟩
  have h := h2 rfl
  refine ⟨t, h1, ?_, h⟩
  obtain ⟨w, hw, he⟩ := h.tight
  have hw3 : ∀ w ∈ strangers, w.tokens.length ≤ 3 := by decide
  have hb : (wordsWitness "B" ["c", "d", "c"]).tokens.length ≤ t.columns.length := h.wide _ (by simp [strangers])
  have h3 : (wordsWitness "B" ["c", "d", "c"]).tokens.length = 3 := by decide
  have := hw3 w hw
  omega

example : ∃ t, collateTable exampleEnv strangers {} = .ok t ∧ InOneColumn strangers t := by
  obtain ⟨t, h1, _, h2⟩ := C76_nothing_in_common exampleEnv kahn_spec strangers strangers_valid (by decide) strangers_apart {} ⟨rfl, rfl, rfl⟩
  exact ⟨t, h1, h2 rfl⟩

/-- With a filter that accepts nothing even equal witnesses are kept apart. -/
example : ∃ t, collateTable exampleEnv threeWitnesses { segmentation := false, pfilter := some (fun _ _ => false) } = .ok t ∧
    OneByOne threeWitnesses t := by
  obtain ⟨t, h1, h2, _⟩ := C76_reject_all exampleEnv kahn_spec threeWitnesses (valid_of_check (by decide) (by decide) (by decide) (by decide))
    (by decide) { segmentation := false, pfilter := some (fun _ _ => false) } ⟨rfl, rfl, rfl⟩ rfl
  exact ⟨t, h1, h2 rfl⟩

end CollateX
