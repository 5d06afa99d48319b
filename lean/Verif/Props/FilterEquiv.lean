import Verif.Props.FilterSeg
/-
C44 for filters that sort the tokens into classes.
-/

namespace CollateX
open Spec

/-- The filter sorts the tokens into classes: it accepts two tokens of the same class. -/
structure Spec.Sorting (f : PFilter) : Prop where
  symm : ∀ a b, f a b = true → f b a = true
  trans : ∀ a b c, f a b = true → f b c = true → f a c = true

/-- A vertex has one token of a witness. -/
theorem on_unique {ws : List Witness} (hv : Valid ws) {g : VGraph} {k i j : Nat} {v : VId} (h1 : On (indexed 0 ws) g k i v)
    (h2 : On (indexed 0 ws) g k j v) : i = j := by
  obtain ⟨w, x, hw, hx, n, hn, hc⟩ := h1
  obtain ⟨w2, x2, hw2, hx2, n2, hn2, hc2⟩ := h2
  rw [hw] at hw2
  obtain rfl := Option.some.inj hw2
  rw [hn] at hn2
  obtain rfl := Option.some.inj hn2
  rw [hc] at hc2
  have e : x = x2 := by simpa using hc2
  subst e
  have hnd := hv.tokens_nodup hw
  obtain ⟨l1, e1⟩ := List.getElem?_eq_some_iff.mp hx
  obtain ⟨l2, e2⟩ := List.getElem?_eq_some_iff.mp hx2
  exact (hnd.getElem_inj_iff (hi := l1) (hj := l2)).mp (by rw [e1, e2])

theorem on_tokenAt {ws : List Witness} {g : VGraph} {k i : Nat} {v : VId} (h : On (indexed 0 ws) g k i v) :
    ∃ w t, ws[k]? = some w ∧ tokenAt ws k i = some t := by
  obtain ⟨w, x, hw, hx, _⟩ := h
  obtain ⟨t, ht, _⟩ := indexed_visible ws hw hx
  obtain ⟨w0, hw0, _⟩ := Option.bind_eq_some_iff.mp ht
  exact ⟨w0, t, hw0, ht⟩

/-- C44 for any number of witnesses no two of which have two neighbouring words in common, and filters that sort the tokens into
classes, with or without segmentation: the filter is respected (what is missing: longer passages in common, for which the claim is
false, see `C44_filter_not_respected`, and other filters). -/
theorem C44_sorting_partial (env : Env) (hts : TopoSpec env.topo) (ws : List Witness) (hv : Valid ws) (hr : Records ws)
    (hs : ∀ w ∈ ws, w.sigil ≠ [])
    (hp : ∀ (k l : Nat) (w x : Witness), k < l → ws[k]? = some w → ws[l]? = some x → NoCommonPair (strings w) (strings x)) (o : Opts)
    (ho : ExactMatching o) (f : PFilter) (hf : o.pfilter = some f) (hc : Sorting f) (ws' : List Witness) (g : VGraph) (rk : Ranking)
    (h : collateRanked env ws o = .ok (ws', g, rk)) (k l i j : Nat) (t u : Token) (hkl : k < l) (ht : tokenAt ws l i = some t)
    (hu : tokenAt ws k j = some u) (ha : Alongside ws' g k j l i) : f (visible t) (visible u) = true := by
  obtain ⟨rfl, g0, rk0, h0, halong⟩ := alongside_unsegmented env hts _ hv hs o ho ws' g rk h
  obtain ⟨v, hk, hl⟩ := (halong _ _ _ _).mp ha
  clear ha halong
  -- one of the earlier witnesses was asked about the token itself
  have ask : ∀ l i k j t, k < l → On (indexed 0 ws) g0 l i v → On (indexed 0 ws) g0 k j v → tokenAt ws l i = some t →
      ∃ k' j' u', k' < l ∧ On (indexed 0 ws) g0 k' j' v ∧ tokenAt ws k' j' = some u' ∧ f (visible t) (visible u') = true := by
    intro l i k j t hkl hl hk ht
    obtain ⟨k', j', d, t', u', a1, a2, a3, a4, a5, a6, a7, a8⟩ := C44_filter_partial env hts ws hv hr hs { o with segmentation := false }
      ⟨ho.astar, ho.detect, ho.near⟩ rfl f hf _ g0 rk0 h0 k l i j v hkl hl hk
    rw [ht] at a5
    obtain rfl := Option.some.inj a5
    rcases Nat.eq_zero_or_pos d with rfl | hd
    · exact ⟨k', j', u', a1, a2, a6, a7⟩
    · exfalso
      obtain ⟨w, _, hw, _⟩ := on_tokenAt a2
      obtain ⟨x, _, hx, _⟩ := on_tokenAt hl
      obtain ⟨b, b', e1, e2, e3⟩ := a8 0 (by omega)
      obtain ⟨c, c', e4, e5, e6⟩ := a8 1 (by omega)
      have s1 := strings_tokenAt hw e1
      have s2 := strings_tokenAt hx e2
      have s3 := strings_tokenAt hw e4
      have s4 := strings_tokenAt hx e5
      simp only [Nat.sub_zero] at s1 s2
      refine hp k' l w x a1 hw hx (j' - 1) (i - 1) c.str b.str s3 ?_ (by rw [s4, e6]) ?_
      · rw [Nat.sub_add_cancel (by omega)]; exact s1
      · rw [Nat.sub_add_cancel (by omega), s2, e3]
  induction l using Nat.strong_induction_on generalizing k i j t u with
  | _ l ih =>
    obtain ⟨k', j', u', a1, a2, a3, a4⟩ := ask l i k j t hkl hl hk ht
    rcases Nat.lt_trichotomy k' k with hlt | rfl | hgt
    · exact hc.trans _ _ _ a4 (hc.symm _ _ (ih k hkl k' j j' u u' hlt hu a3 a2 hk))
    · obtain rfl := on_unique hv hk a2
      rw [hu] at a3
      obtain rfl := Option.some.inj a3
      exact a4
    · exact hc.trans _ _ _ a4 (ih k' a1 k j' j u' u hgt a3 hu hk a2)

/-- Filters that compare the properties are of this kind. -/
theorem sameProps_sorting : Sorting sameProps := by
  constructor
  · intro a b h
    unfold sameProps at h ⊢
    rw [beq_iff_eq] at h ⊢
    exact h.symm
  · intro a b c h1 h2
    unfold sameProps at h1 h2 ⊢
    rw [beq_iff_eq] at h1 h2 ⊢
    exact h1.trans h2

/-- Three witnesses; the third has `b` with the property of the first. -/
def sortedWitnesses : List Witness :=
  [⟨S "A", [propToken "a" "y", propToken "c" "y", propToken "b" "x"]⟩, ⟨S "B", [propToken "a" "y", propToken "b" "y"]⟩,
    ⟨S "C", [propToken "d" "y", propToken "b" "x"]⟩]

/-- The hypotheses are met: `b` of the third witness joins that of the first and not that of the second. -/
example : TopoSpec exampleEnv.topo ∧ Valid sortedWitnesses ∧ Records sortedWitnesses ∧ (∀ w ∈ sortedWitnesses, w.sigil ≠ []) ∧
    Sorting sameProps ∧
    (∀ (k l : Nat) (w x : Witness), k < l → sortedWitnesses[k]? = some w → sortedWitnesses[l]? = some x → NoCommonPair (strings w) (strings x)) ∧
    (collateRanked exampleEnv sortedWitnesses { pfilter := some sameProps }).map
      (fun r => r.2.1.vertices.filterMap (fun v => (tokensOfBoth r 0 2 v).map (fun q => (q.1.map Token.str, q.2.map Token.str)))) =
      .ok [([S "b"], [S "b"])] ∧
    (collateRanked exampleEnv sortedWitnesses { pfilter := some sameProps }).map
      (fun r => r.2.1.vertices.filterMap (fun v => (tokensOfBoth r 1 2 v).map (fun q => (q.1.map Token.str, q.2.map Token.str)))) =
      .ok [] := by
  refine ⟨kahn_spec, ⟨by decide, by decide, by decide, ?_⟩, by unfold Records; decide, by decide, sameProps_sorting, ?_,
    by decide +kernel, by decide +kernel⟩
  · intro w hw t ht hsep
    obtain ⟨i, _, h⟩ := hsep
    have hd : ∀ w ∈ sortedWitnesses, ∀ t ∈ w.tokens, t.str.head? ≠ some '$' := by decide
    exact hd w hw t ht (by rw [h]; rfl)
  · intro k l w x hkl hw hx
    have hl : l < 3 := (List.getElem?_eq_some_iff.mp hx).1
    have cases3 : (k = 0 ∧ l = 1) ∨ (k = 0 ∧ l = 2) ∨ (k = 1 ∧ l = 2) := by omega
    rcases cases3 with ⟨rfl, rfl⟩ | ⟨rfl, rfl⟩ | ⟨rfl, rfl⟩ <;>
    · obtain rfl := Option.some.inj hw
      obtain rfl := Option.some.inj hx
      exact noCommonPair_of (by decide)

end CollateX
