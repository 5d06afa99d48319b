import Verif.Props.Limits
import Verif.Props.Grouping
import Verif.Props.Near
/-
Property C44 with segmentation, which is the default of `collate` (core_functions.py:33), and with near matching.
-/

namespace CollateX
open Spec

/-- Token `j` of witness `k` and token `i` of witness `l` stand at the same place of one vertex of the graph. -/
def Spec.Alongside (us : List Witness) (g : VGraph) (k j l i : Nat) : Prop :=
  ∃ w x t u, us[k]? = some w ∧ us[l]? = some x ∧ w.tokens[j]? = some t ∧ x.tokens[i]? = some u ∧
    Together g w.sigil x.sigil t u

/-- Without segmentation two tokens stand at the same place if they are on one vertex. -/
theorem alongside_on {cc : CharClass} {us : List Witness} {g : VGraph} {ps : List WPath} {rk : Ranking}
    {rkf : VId → Nat} {ord : List VId} {m : Nat} (C : Collated cc us false g ps rk rkf ord m) (hs : ∀ w ∈ us, w.sigil ≠ [])
    (k j l i : Nat) : Alongside us g k j l i ↔ ∃ v, On us g k j v ∧ On us g l i v := by
  have one : ∀ {v σ ts n t}, CarriesAt g v σ ts → ts[n]? = some t → ts = [t] ∧ n = 0 := by
    intro v σ ts n t h hn
    obtain ⟨p, hp, _, hm⟩ := (C.carries hs).mp h
    obtain ⟨t', ht'⟩ := C.single rfl p hp _ hm
    simp only at ht'
    subst ht'
    cases n with
    | zero => simp at hn; exact ⟨by rw [hn], rfl⟩
    | succ n => simp at hn
  constructor
  · rintro ⟨w, x, t, u, h1, h2, h3, h4, v, ts, us', n, c1, c2, e1, e2⟩
    obtain ⟨rfl, _⟩ := one c1 e1
    obtain ⟨rfl, _⟩ := one c2 e2
    exact ⟨v, ⟨w, t, h1, h3, c1⟩, ⟨x, u, h2, h4, c2⟩⟩
  · rintro ⟨v, ⟨w, t, h1, h3, c1⟩, ⟨x, u, h2, h4, c2⟩⟩
    exact ⟨w, x, t, u, h1, h2, h3, h4, v, [t], [u], 0, c1, c2, rfl, rfl⟩

/-- Standing alongside, seen in the graph without segmentation. -/
theorem alongside_unsegmented (env : Env) (hts : TopoSpec env.topo) (ws : List Witness) (hv : Valid ws)
    (hs : ∀ w ∈ ws, w.sigil ≠ []) (o : Opts) (ho : ExactMatching o) (ws' : List Witness) (g : VGraph) (rk : Ranking)
    (h : collateRanked env ws o = .ok (ws', g, rk)) :
    ws' = indexed 0 ws ∧ ∃ g0 rk0, collateRanked env ws { o with segmentation := false } = .ok (ws', g0, rk0) ∧
      ∀ k j l i, Alongside ws' g k j l i ↔ ∃ v, On ws' g0 k j v ∧ On ws' g0 l i v := by
  obtain ⟨us, g0, rk0, g1, rk1, h0, h1, htog, _⟩ := C66_grouping env hts ws hv hs o ho
  obtain ⟨g2, ps, rk2, rkf, ord, m, h2, C⟩ :=
    collateRanked_ok env hts hv { o with segmentation := false } ho.astar ho.detect ho.near
  rw [h0] at h2
  obtain ⟨rfl, rfl, rfl⟩ : us = indexed 0 ws ∧ g0 = g2 ∧ rk0 = rk2 := by
    have := Except.ok.inj h2
    simpa using this
  have key : ws' = indexed 0 ws ∧ ∀ σ τ t u, Together g σ τ t u ↔ Together g0 σ τ t u := by
    obtain ⟨out, lay, s, n, a, d, pf⟩ := o
    cases s with
    | false =>
      simp only at h0
      rw [h0] at h
      have := Except.ok.inj h
      simp only [Prod.mk.injEq] at this
      obtain ⟨rfl, rfl, rfl⟩ := this
      exact ⟨rfl, fun _ _ _ _ => Iff.rfl⟩
    | true =>
      simp only at h1
      rw [h1] at h
      have := Except.ok.inj h
      simp only [Prod.mk.injEq] at this
      obtain ⟨rfl, rfl, rfl⟩ := this
      exact ⟨rfl, htog⟩
  obtain ⟨rfl, key⟩ := key
  refine ⟨rfl, g0, rk0, h0, ?_⟩
  intro k j l i
  rw [← alongside_on C (indexed_sigil_ne hs)]
  unfold Alongside
  simp only [key]

/-- C44, partial (with or without segmentation). If token `i` of witness `l` stands alongside a token of an earlier witness, then
with one of the earlier tokens alongside which it stands (witness `k'`, token `j`), the `d + 1` tokens up to `i` and up to `j`
have the same strings and the filter accepted the token `i` together with the token `j - d`. Missing: `d` need not be 0, and not
all the witnesses alongside are asked. -/
theorem C44_segmented_partial (env : Env) (hts : TopoSpec env.topo) (ws : List Witness) (hv : Valid ws) (hr : Records ws)
    (hs : ∀ w ∈ ws, w.sigil ≠ []) (o : Opts) (ho : ExactMatching o) (f : PFilter)
    (hf : o.pfilter = some f) (ws' : List Witness) (g : VGraph) (rk : Ranking)
    (h : collateRanked env ws o = .ok (ws', g, rk)) (k l i j0 : Nat) (hkl : k < l) (ha : Alongside ws' g k j0 l i) :
    ∃ (k' j d : Nat) (t u : Token), k' < l ∧ Alongside ws' g k' j l i ∧ d ≤ i ∧ d ≤ j ∧
      tokenAt ws l i = some t ∧ tokenAt ws k' (j - d) = some u ∧ f (visible t) (visible u) = true ∧
      ∀ e, e ≤ d → ∃ a c, tokenAt ws k' (j - e) = some a ∧ tokenAt ws l (i - e) = some c ∧ a.str = c.str := by
  obtain ⟨_, g0, rk0, h0, halong⟩ := alongside_unsegmented env hts ws hv hs o ho ws' g rk h
  obtain ⟨v, hk, hl⟩ := (halong _ _ _ _).mp ha
  obtain ⟨k', j, d, t, u, a1, a2, a3⟩ := C44_filter_partial env hts ws hv hr hs { o with segmentation := false }
    ⟨ho.astar, ho.detect, ho.near⟩ rfl f hf _ g0 rk0 h0 k l i j0 v hkl hl hk
  exact ⟨k', j, d, t, u, a1, (halong _ _ _ _).mpr ⟨v, a2, hl⟩, a3⟩

/-- C44, partial, with near matching: near matching moves vertices to other columns, but what the filter was asked about the tokens
on a vertex is as in `C44_filter_partial` (missing: as there). -/
theorem C44_near_partial (env : Env) (hts : TopoSpec env.topo) (ws : List Witness) (hv : Valid ws) (hr : Records ws)
    (hs : ∀ w ∈ ws, w.sigil ≠ []) (o : Opts) (ho : NearMatching o) (f : PFilter)
    (hf : o.pfilter = some f) (ws' : List Witness) (g : VGraph) (rk : Ranking)
    (h : collateRanked env ws o = .ok (ws', g, rk)) (k l i j0 : Nat) (v : VId) (hkl : k < l)
    (hl : On ws' g l i v) (hk : On ws' g k j0 v) :
    ∃ (k' j d : Nat) (t u : Token), k' < l ∧ On ws' g k' j v ∧ d ≤ i ∧ d ≤ j ∧
      tokenAt ws l i = some t ∧ tokenAt ws k' (j - d) = some u ∧ f (visible t) (visible u) = true ∧
      ∀ e, e ≤ d → ∃ a c, tokenAt ws k' (j - e) = some a ∧ tokenAt ws l (i - e) = some c ∧ a.str = c.str := by
  obtain ⟨us, g1, rk1, g0, rk0, h1, h0, hn, _⟩ := C33_near_matching env hts ws hv o ho
  rw [h] at h1
  have := Except.ok.inj h1
  simp only [Prod.mk.injEq] at this
  obtain ⟨rfl, rfl, rfl⟩ := this
  have hon : ∀ l i v, On ws' g l i v ↔ On ws' g0 l i v := by
    intro l i v
    unfold On CarriesAt
    rw [hn]
  obtain ⟨k', j, d, t, u, a1, a2, a3⟩ := C44_filter_partial env hts ws hv hr hs { o with nearMatch := false }
    ⟨ho.astar, ho.detect, rfl⟩ ho.seg f hf ws' g0 rk0 h0 k l i j0 v hkl ((hon _ _ _).mp hl) ((hon _ _ _).mp hk)
  exact ⟨k', j, d, t, u, a1, (hon _ _ _).mpr a2, a3⟩

/-- Two texts have no two neighbouring words in common. -/
def Spec.NoCommonPair (A B : List Str) : Prop :=
  ∀ i j a b, A[i]? = some a → A[i + 1]? = some b → B[j]? = some a → B[j + 1]? ≠ some b

theorem strings_tokenAt {ws : List Witness} {k i : Nat} {w : Witness} {t : Token} (hw : ws[k]? = some w)
    (ht : tokenAt ws k i = some t) : (strings w)[i]? = some t.str := by
  unfold tokenAt at ht
  rw [hw] at ht
  unfold strings
  rw [List.getElem?_map]
  simp only [Option.bind_some] at ht
  rw [ht]
  rfl

/-- C44 for two witnesses without two neighbouring words in common, with or without segmentation: the filter is respected (what is
missing: longer passages in common, for which the claim is false, see `C44_filter_not_respected`, and further witnesses). -/
theorem C44_no_common_pair_partial (env : Env) (hts : TopoSpec env.topo) (wA wB : Witness) (hv : Valid [wA, wB])
    (hr : Records [wA, wB]) (hs : ∀ w ∈ [wA, wB], w.sigil ≠ []) (hp : NoCommonPair (strings wA) (strings wB)) (o : Opts)
    (ho : ExactMatching o) (f : PFilter) (hf : o.pfilter = some f) (ws' : List Witness) (g : VGraph) (rk : Ranking)
    (h : collateRanked env [wA, wB] o = .ok (ws', g, rk)) (i j : Nat) (t u : Token) (hu : wA.tokens[j]? = some u)
    (ht : wB.tokens[i]? = some t) (ha : Alongside ws' g 0 j 1 i) : f (visible t) (visible u) = true := by
  obtain ⟨rfl, g0, rk0, h0, halong⟩ := alongside_unsegmented env hts _ hv hs o ho ws' g rk h
  obtain ⟨v, hk, hl⟩ := (halong _ _ _ _).mp ha
  obtain ⟨k', j', d, t', u', a1, a2, a3, a4, a5, a6, a7, a8⟩ := C44_filter_partial env hts _ hv hr hs { o with segmentation := false }
    ⟨ho.astar, ho.detect, ho.near⟩ rfl f hf _ g0 rk0 h0 0 1 i j v (by omega) hl hk
  obtain rfl : k' = 0 := by omega
  -- the token of the first witness on the vertex
  have hj : j' = j := by
    obtain ⟨w, x, hw, hx, n, hn, hc⟩ := hk
    obtain ⟨w2, x2, hw2, hx2, n2, hn2, hc2⟩ := a2
    rw [hw] at hw2
    obtain rfl := Option.some.inj hw2
    rw [hn] at hn2
    obtain rfl := Option.some.inj hn2
    rw [hc] at hc2
    have e : x = x2 := by simpa using hc2
    subst e
    have hnd := hv.tokens_nodup hw
    obtain ⟨l1, e1⟩ := List.getElem?_eq_some_iff.mp hx2
    obtain ⟨l2, e2⟩ := List.getElem?_eq_some_iff.mp hx
    exact (hnd.getElem_inj_iff (hi := l1) (hj := l2)).mp (by rw [e1, e2])
  subst hj
  obtain rfl : d = 0 := by
    rcases Nat.eq_zero_or_pos d with h0 | hd
    · exact h0
    · exfalso
      obtain ⟨b, b', e1, e2, e3⟩ := a8 0 (by omega)
      obtain ⟨c, c', e4, e5, e6⟩ := a8 1 (by omega)
      have s1 := strings_tokenAt (w := wA) rfl e1
      have s2 := strings_tokenAt (w := wB) rfl e2
      have s3 := strings_tokenAt (w := wA) rfl e4
      have s4 := strings_tokenAt (w := wB) rfl e5
      simp only [Nat.sub_zero] at s1 s2
      refine hp (j' - 1) (i - 1) c.str b.str s3 ?_ (by rw [s4, e6]) ?_
      · rw [Nat.sub_add_cancel (by omega)]; exact s1
      · rw [Nat.sub_add_cancel (by omega), s2, e3]
  have e1 : wB.tokens[i]? = some t' := by simpa [tokenAt] using a5
  have e2 : wA.tokens[j']? = some u' := by simpa [tokenAt] using a6
  rw [ht] at e1
  rw [hu] at e2
  obtain rfl := Option.some.inj e1
  obtain rfl := Option.some.inj e2
  exact a7

/-- Two witnesses with the words `a` and `b` in common, but no pair of words. -/
def unpairedWitnesses : List Witness :=
  [⟨S "A", [propToken "a" "y", propToken "c" "y", propToken "b" "x"]⟩, ⟨S "B", [propToken "a" "y", propToken "b" "y"]⟩]

/-- The tokens of two witnesses on a vertex, when it carries both witnesses. -/
def tokensOfBoth (r : List Witness × VGraph × Ranking) (k l : Nat) (v : VId) : Option (List Token × List Token) :=
  match r.1[k]?, r.1[l]?, dget r.2.1.nodes v with
  | some w, some x, some n =>
    match dget n.tokens w.sigil, dget n.tokens x.sigil with
    | some a, some b => some (a, b)
    | _, _ => none
  | _, _, _ => none

/-- The hypotheses of `C44_segmented_partial` are met with segmentation, and `d` is not always 0: the passage `a b` of both
witnesses is one vertex, although the filter rejects the two tokens `b`. -/
example : TopoSpec exampleEnv.topo ∧ Valid filterWitnesses ∧ Records filterWitnesses ∧ (∀ w ∈ filterWitnesses, w.sigil ≠ []) ∧
    (collateRanked exampleEnv filterWitnesses { pfilter := some sameProps }).map
      (fun r => (tokensOfBoth r 0 1 2).map (fun q => (q.1.map Token.str, q.2.map Token.str))) =
      .ok (some ([S "a", S "b"], [S "a", S "b"])) :=
  ⟨kahn_spec, filterWitnesses_valid, filterWitnesses_records, by decide, by decide +kernel⟩

theorem noCommonPair_of {A B : List Str}
    (h : (List.range A.length).all (fun i => (List.range B.length).all (fun j =>
      !(A[i]?.isSome && A[i + 1]?.isSome && A[i]? == B[j]? && A[i + 1]? == B[j + 1]?))) = true) : NoCommonPair A B := by
  intro i j a b h1 h2 h3 h4
  have := List.all_eq_true.mp (List.all_eq_true.mp h i (List.mem_range.mpr (List.getElem?_eq_some_iff.mp h1).1)) j
    (List.mem_range.mpr (List.getElem?_eq_some_iff.mp h3).1)
  rw [h1, h2, h3, h4] at this
  simp at this

/-- The hypotheses of `C44_no_common_pair_partial` are met; `a` shares a vertex, and `b`, which the filter rejects, does not. -/
example : TopoSpec exampleEnv.topo ∧ Valid unpairedWitnesses ∧ Records unpairedWitnesses ∧ (∀ w ∈ unpairedWitnesses, w.sigil ≠ []) ∧
    NoCommonPair [S "a", S "c", S "b"] [S "a", S "b"] ∧
    (collateRanked exampleEnv unpairedWitnesses { pfilter := some sameProps }).map
      (fun r => r.2.1.vertices.map (fun v => (tokensOfBoth r 0 1 v).map (fun q => (q.1.map Token.str, q.2.map Token.str)))) =
      .ok [none, none, some ([S "a"], [S "a"]), none, none] := by
  refine ⟨kahn_spec, ⟨by decide, by decide, by decide, ?_⟩, by unfold Records; decide, by decide, noCommonPair_of (by decide), by decide +kernel⟩
  intro w hw t ht hsep
  obtain ⟨i, _, h⟩ := hsep
  have hd : ∀ w ∈ unpairedWitnesses, ∀ t ∈ w.tokens, t.str.head? ≠ some '$' := by decide
  exact hd w hw t ht (by rw [h]; rfl)

/-- The hypotheses of `C44_near_partial` are met. -/
example : TopoSpec nearEnv.topo ∧ Valid filterWitnesses ∧ Records filterWitnesses ∧
    NearMatching { segmentation := false, nearMatch := true, pfilter := some sameProps } ∧
    (collateRanked nearEnv filterWitnesses { segmentation := false, nearMatch := true, pfilter := some sameProps }).map
      (fun r => sharedTokens r 1 0 0 0 2) = .ok true :=
  ⟨kahn_spec, filterWitnesses_valid, filterWitnesses_records, ⟨rfl, rfl, rfl, rfl⟩, by decide +kernel⟩

end CollateX
