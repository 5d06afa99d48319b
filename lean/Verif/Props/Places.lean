import Verif.Proofs.Places
import Verif.Props.Opening
/-
Witnesses of the same length whose words stand in the same places: C99.
-/

namespace CollateX
open Spec

/-- Every word of the witness stands on the same place in one of the earlier witnesses, or in none of them at all. -/
def Spec.KeepsPlaces (earlier : List Witness) (w : Witness) : Prop :=
  ∀ (i : Nat) (a : Str), (strings w)[i]? = some a → (∃ w' ∈ earlier, (strings w')[i]? = some a) ∨ ∀ w' ∈ earlier, a ∉ strings w'

/-- The witnesses have `n` words each, and keep the places of those before them. -/
structure Spec.PlaceByPlace (n : Nat) (ws : List Witness) : Prop where
  length : ∀ w ∈ ws, (strings w).length = n
  keeps : ∀ (k : Nat) (w : Witness), ws[k]? = some w → KeepsPlaces (ws.take k) w

/-- Every witness that has a word of another one has it on the same place. -/
def Spec.SharedPlaces (ws : List Witness) : Prop :=
  ∀ w ∈ ws, ∀ w' ∈ ws, ∀ (i : Nat) (a : Str), (strings w)[i]? = some a → a ∈ strings w' → (strings w')[i]? = some a

/-- Every row of the table shows the words of its witness, one in each cell and without gaps. -/
def Spec.showsPlaces (t : Table) (ws : List Witness) : Prop :=
  t.rows.map (fun r => (r.header, r.cells.map (Option.map (fun ts => ts.map Token.str)))) =
    ws.map (fun w => (w.sigil, (strings w).map (fun a => some [a])))

/-- A column is variant unless all witnesses have the same word there. -/
def Spec.variantPlaces (t : Table) (ws : List Witness) : Prop :=
  ∀ (j : Nat) (c : Column), t.columns[j]? = some c → (c.variant = false ↔ ∃ a, ∀ w ∈ ws, (strings w)[j]? = some a)

theorem indexed_tokenStrings (ws : List Witness) : (indexed 0 ws).map (fun x => x.tokens.map Token.str) = ws.map strings := by
  apply List.ext_getElem?
  intro k
  rw [List.getElem?_map, List.getElem?_map]
  by_cases hk : k < ws.length
  · have h1 : (indexed 0 ws)[k]? = some ((indexed 0 ws)[k]'(by rw [indexed_length]; exact hk)) := List.getElem?_eq_getElem _
    obtain ⟨w0, h2, _, h3⟩ := indexed_strs _ h1
    rw [h1, h2]
    simp only [Option.map_some, h3]
    rfl
  · rw [List.getElem?_eq_none (by rw [indexed_length]; omega), List.getElem?_eq_none (by omega)]
    rfl

section
variable {env : Env} {ws : List Witness} {n : Nat}

/-- The paths of the collation without segmentation. -/
theorem places_core (env : Env) (hts : TopoSpec env.topo) (hv : Valid ws) (hp : PlaceByPlace n ws) (o : Opts)
    (ho : ExactMatching o) (hf : o.pfilter = none) (hseg : o.segmentation = false) :
    ∃ g ps rk rkf ord m, collateRanked env ws o = .ok (indexed 0 ws, g, rk) ∧
      Collated env.cc (indexed 0 ws) false g ps rk rkf ord m ∧ Placewise n ps := by
  have key := collateRanked_inv env hts hv o ho.astar ho.detect ho.near (Q := fun _ _ ps => Placewise n ps) (R := fun _ ps => Placewise n ps) (by
    intro ti hti L B
    have hlen : ∀ (k : Nat) w, ti.ws[k]? = some w → w.tokens.length = n := by
      intro k w hw
      rw [hti] at hw
      obtain ⟨w1, e1, _, e2⟩ := indexed_strs _ hw
      have := hp.length w1 (List.mem_of_getElem? e1)
      rw [← this, ← List.length_map (f := Token.str), e2]
      rfl
    refine ⟨?_, ?_, fun _ _ _ _ h => h⟩
    · rw [hf]
      intro s s' ps w P rkf o m r cube cells al hs hne hw hs' hst hu
      refine hu.step L B hs hne hw hst (hlen _ _ hw) hs' ?_
      rw [List.map_take, hti, indexed_tokenStrings]
      rw [hti] at hw
      obtain ⟨w1, e1, _, e2⟩ := indexed_strs _ hw
      intro i a ha
      rw [e2] at ha
      rw [← List.map_take]
      rcases hp.keeps _ w1 e1 i a ha with ⟨w', h1, h2⟩ | h1
      · exact Or.inl ⟨_, List.mem_map.mpr ⟨w', h1, rfl⟩, h2⟩
      · refine Or.inr ?_
        intro l' hl'
        obtain ⟨w', h2, rfl⟩ := List.mem_map.mp hl'
        exact h1 w' h2
    · intro w s hw hs
      have h1 := placewise_first (hs.ginv.inner_nodup (p := ⟨w.sigil, newSegs [] 2 w.tokens⟩) (by simp))
      simp only [newSegs_length, hlen _ _ hw] at h1
      exact h1) (by simp [hseg])
  obtain ⟨g, ps, rk, rkf, ord, m, h1, C, h⟩ := key
  rw [hseg] at C
  exact ⟨g, ps, rk, rkf, ord, m, h1, C, h⟩

end

/-- C99. Witnesses of the same length, in which every word stands on the same place in some earlier witness or in no earlier witness at
all, are aligned place by place: the table without segmentation has the `i`-th words of all witnesses in its `i`-th column. The column is
variant exactly if the words differ. -/
theorem C99_place_by_place (env : Env) (hts : TopoSpec env.topo) (ws : List Witness) (hv : Valid ws) (hs : ∀ w ∈ ws, w.sigil ≠ []) (n : Nat)
    (hp : PlaceByPlace n ws) (o : Opts) (ho : ExactMatching o) (hf : o.pfilter = none) (hseg : o.segmentation = false) :
    ∃ t, collateTable env ws o = .ok t ∧ t.columns.length = n ∧ showsPlaces t ws ∧ variantPlaces t ws := by
  obtain ⟨g, ps, rk, rkf, ord, m, h1, C, hpl⟩ := places_core env hts hv hp o ho hf hseg
  have hsi := indexed_sigil_ne hs
  have hne : ps ≠ [] := by
    intro h0
    have := C.length
    rw [h0, indexed_length] at this
    exact hv.ne (List.length_eq_zero_iff.mp this.symm)
  obtain ⟨e, he, _, _, _, _, hcl, hcell⟩ := C21_of_collation env hts _ _ hv hs o ho g rk h1
  rw [C.rank.byVertex C.ginv.end_mem] at he
  obtain rfl := Option.some.inj he
  have hre := hpl.rank_end hne C.ginv C.rank
  -- the segments of the paths
  have hrd : ∀ {k : Nat} {w : Witness}, (indexed 0 ws)[k]? = some w → ∃ p, ps[k]? = some p ∧ p.sigil = w.sigil ∧
      p.segs.map Prod.snd = w.tokens.map (fun t => [t]) := by
    intro k w hw
    obtain ⟨p, e1, e2, e3⟩ := C.at hw
    exact ⟨p, e1, e2, by rw [single_segs (C.single rfl p (List.mem_of_getElem? e1)), e3]⟩
  have hsg : ∀ {k : Nat} {w : Witness}, (indexed 0 ws)[k]? = some w → ∀ {j : Nat} {t : Token}, w.tokens[j]? = some t →
      ∃ p, ps[k]? = some p ∧ p.sigil = w.sigil ∧ ∃ v, p.segs[j]? = some (v, [t]) := by
    intro k w hw j t ht
    obtain ⟨p, e1, e2, e3⟩ := hrd hw
    have h6 : (p.segs.map Prod.snd)[j]? = some [t] := by rw [e3, List.getElem?_map, ht]; rfl
    rw [List.getElem?_map] at h6
    obtain ⟨⟨v, us⟩, h7, h8⟩ := Option.map_eq_some_iff.mp h6
    simp only at h8
    subst h8
    exact ⟨p, e1, e2, v, h7⟩
  have hlen : ∀ {k : Nat} {w : Witness}, (indexed 0 ws)[k]? = some w → w.tokens.length = n := by
    intro k w hw
    obtain ⟨w1, f1, _, f2⟩ := indexed_strs _ hw
    have := hp.length w1 (List.mem_of_getElem? f1)
    rw [← this, ← List.length_map (f := Token.str), f2]
    rfl
  have hget : ∀ {k : Nat} {w : Witness}, (indexed 0 ws)[k]? = some w → ∀ {j : Nat} {t : Token}, w.tokens[j]? = some t →
      ∀ c, (mkTable (indexed 0 ws) g rk).columns[j]? = some c → dget c.tokens w.sigil = some [t] := by
    intro k w hw j t ht c hc
    obtain ⟨p, e1, e2, v, e3⟩ := hsg hw ht
    have hpm := List.mem_of_getElem? e1
    have hvm := (C.ginv.segs_in p hpm _ (List.mem_of_getElem? e3)).1
    exact (hcell _ c hc _ _).mpr ⟨v, hvm, by rw [C.rank.byVertex hvm, hpl.rank_inner C.ginv C.rank hpm (inner_of_segs e3)],
      (C.carries hsi).mpr ⟨p, hpm, e2, List.mem_of_getElem? e3⟩⟩
  refine ⟨mkTable (indexed 0 ws) g rk, by unfold collateTable; rw [h1]; rfl, by omega, ?_, ?_⟩
  · unfold showsPlaces
    rw [mkTable_rows, List.map_map]
    apply List.ext_getElem?
    intro k
    rw [List.getElem?_map, List.getElem?_map]
    by_cases hk : k < ws.length
    · have hw : (indexed 0 ws)[k]? = some ((indexed 0 ws)[k]'(by rw [indexed_length]; exact hk)) := List.getElem?_eq_getElem _
      generalize (indexed 0 ws)[k]'(by rw [indexed_length]; exact hk) = w at hw
      obtain ⟨w1, f1, f3, f2⟩ := indexed_strs _ hw
      rw [hw, f1]
      simp only [Option.map_some, Function.comp_apply, Option.some.injEq, Prod.mk.injEq]
      refine ⟨f3, ?_⟩
      rw [show strings w1 = w.tokens.map Token.str from f2.symm, List.map_map, List.map_map]
      apply List.ext_getElem?
      intro j
      rw [List.getElem?_map, List.getElem?_map]
      have hl := hlen hw
      by_cases hj : j < n
      · obtain ⟨c, hc⟩ : ∃ c, (mkTable (indexed 0 ws) g rk).columns[j]? = some c := ⟨_, List.getElem?_eq_getElem (by omega)⟩
        obtain ⟨t, ht⟩ : ∃ t, w.tokens[j]? = some t := ⟨_, List.getElem?_eq_getElem (by omega)⟩
        rw [hc, ht]
        simp only [Option.map_some, Function.comp_apply]
        rw [hget hw ht c hc]
        rfl
      · rw [List.getElem?_eq_none (by omega), List.getElem?_eq_none (by omega)]
        rfl
    · rw [List.getElem?_eq_none (by rw [indexed_length]; omega), List.getElem?_eq_none (by omega)]
      rfl
  · intro j c hc
    have hj : j < n := by
      have := (List.getElem?_eq_some_iff.mp hc).1
      omega
    have hidx : ∀ w ∈ ws, ∃ (k : Nat) (w' : Witness), (indexed 0 ws)[k]? = some w' ∧ w'.sigil = w.sigil ∧ w'.tokens.map Token.str = strings w := by
      intro w hw
      obtain ⟨k, hk⟩ := List.getElem?_of_mem hw
      have hkl := (List.getElem?_eq_some_iff.mp hk).1
      have hw' : (indexed 0 ws)[k]? = some ((indexed 0 ws)[k]'(by rw [indexed_length]; exact hkl)) := List.getElem?_eq_getElem _
      obtain ⟨w1, f1, f3, f2⟩ := indexed_strs _ hw'
      rw [hk] at f1
      obtain rfl := Option.some.inj f1
      exact ⟨k, _, hw', f3, f2⟩
    rw [C27_variant_iff env hts _ _ hv hs o ho g rk h1 _ c hc]
    constructor
    · rintro ⟨⟨v, hv1⟩, _⟩
      have hvt : ∀ w ∈ ws, ∃ p ∈ ps, ∃ t, (strings w)[j]? = some t.str ∧ (v, [t]) ∈ p.segs := by
        intro w hw
        obtain ⟨k, w', g1, g2, g3⟩ := hidx w hw
        obtain ⟨t, ht⟩ : ∃ t, w'.tokens[j]? = some t := ⟨_, List.getElem?_eq_getElem (by rw [hlen g1]; exact hj)⟩
        obtain ⟨p, e1, e2, v', e3⟩ := hsg g1 ht
        have hpm := List.mem_of_getElem? e1
        have hvm := (C.ginv.segs_in p hpm _ (List.mem_of_getElem? e3)).1
        have := (hv1 v' hvm).mp (by rw [C.rank.byVertex hvm, hpl.rank_inner C.ginv C.rank hpm (inner_of_segs e3)])
        subst this
        exact ⟨p, hpm, t, by rw [← g3, List.getElem?_map, ht]; rfl, List.mem_of_getElem? e3⟩
      obtain ⟨w0, hw0⟩ := List.exists_mem_of_ne_nil ws hv.ne
      obtain ⟨p0, hp0, t0, h2, h3⟩ := hvt w0 hw0
      refine ⟨t0.str, ?_⟩
      intro w hw
      obtain ⟨p, hp', t, h4, h5⟩ := hvt w hw
      rw [h4]
      have := C.uniform p hp' p0 hp0 v _ _ h5 h3
      simp only [List.map_cons, List.map_nil, List.cons.injEq, and_true] at this
      rw [this]
    · rintro ⟨a, ha⟩
      have hall : ∀ q ∈ ps, ∃ v t, q.segs[j]? = some (v, [t]) ∧ t.str = a := by
        intro q hq
        obtain ⟨k, hk⟩ := List.getElem?_of_mem hq
        have hkl : k < ws.length := by
          have := (List.getElem?_eq_some_iff.mp hk).1
          rwa [C.length, indexed_length] at this
        have hw' : (indexed 0 ws)[k]? = some ((indexed 0 ws)[k]'(by rw [indexed_length]; exact hkl)) := List.getElem?_eq_getElem _
        obtain ⟨w1, f1, f3, f2⟩ := indexed_strs _ hw'
        obtain ⟨t, ht⟩ : ∃ t, ((indexed 0 ws)[k]'(by rw [indexed_length]; exact hkl)).tokens[j]? = some t :=
          ⟨_, List.getElem?_eq_getElem (by rw [hlen hw']; exact hj)⟩
        obtain ⟨p, e1, _, v, e3⟩ := hsg hw' ht
        rw [hk] at e1
        obtain rfl := Option.some.inj e1
        refine ⟨v, t, e3, ?_⟩
        have h5 := ha w1 (List.mem_of_getElem? f1)
        rw [show strings w1 = _ from f2.symm, List.getElem?_map, ht] at h5
        exact Option.some.inj h5
      obtain ⟨p0, hp0⟩ := List.exists_mem_of_ne_nil ps hne
      obtain ⟨v, t0, hv0, ht0⟩ := hall p0 hp0
      refine ⟨⟨v, ?_⟩, ?_⟩
      · intro u hu
        rw [C.rank.byVertex hu, Option.some.injEq]
        constructor
        · intro hr
          have hus : u ≠ startV := by
            rintro rfl
            have := hpl.rank C.ginv C.rank 0 p0 hp0 _ (path_zero p0)
            omega
          have hue : u ≠ endV := by rintro rfl; omega
          obtain ⟨q, hq, huq⟩ := C.ginv.cover u hu hus hue
          obtain ⟨i, hi⟩ := List.getElem?_of_mem huq
          have := hpl.rank_inner C.ginv C.rank hq hi
          obtain rfl : i = j := by omega
          obtain ⟨v', t', h5, h6⟩ := hall q hq
          have h7 := inner_of_segs h5
          rw [hi] at h7
          obtain rfl := Option.some.inj h7
          exact hpl.same q hq p0 hp0 i u v t' t0 h5 hv0 (by rw [h6, ht0])
        · rintro rfl
          exact hpl.rank_inner C.ginv C.rank hp0 (inner_of_segs hv0)
      · intro w hw
        obtain ⟨k, w', g1, g2, g3⟩ := hidx w hw
        obtain ⟨t, ht⟩ : ∃ t, w'.tokens[j]? = some t := ⟨_, List.getElem?_eq_getElem (by rw [hlen g1]; exact hj)⟩
        exact ⟨_, by rw [← g2]; exact hget g1 ht c hc⟩

theorem Spec.SharedPlaces.placeByPlace {ws : List Witness} (h : SharedPlaces ws) {n : Nat} (hn : ∀ w ∈ ws, (strings w).length = n) :
    PlaceByPlace n ws := by
  refine ⟨hn, ?_⟩
  intro k w hw i a ha
  by_cases hm : ∃ w' ∈ ws.take k, a ∈ strings w'
  · obtain ⟨w', h1, h2⟩ := hm
    exact Or.inl ⟨w', h1, h w (List.mem_of_getElem? hw) w' (List.mem_of_mem_take h1) i a ha h2⟩
  · exact Or.inr (fun w' h1 h2 => hm ⟨w', h1, h2⟩)

/-- If witnesses that share a word share its place, the order of the witnesses does not matter. -/
theorem C99_any_order (env : Env) (hts : TopoSpec env.topo) (ws ws' : List Witness) (hv' : Valid ws') (hperm : ws'.Perm ws)
    (hs : ∀ w ∈ ws, w.sigil ≠ []) (n : Nat) (hn : ∀ w ∈ ws, (strings w).length = n) (hp : SharedPlaces ws) (o : Opts) (ho : ExactMatching o)
    (hf : o.pfilter = none) (hseg : o.segmentation = false) :
    ∃ t, collateTable env ws' o = .ok t ∧ t.columns.length = n ∧ showsPlaces t ws' ∧ variantPlaces t ws := by
  have hm : ∀ w, w ∈ ws' ↔ w ∈ ws := fun w => hperm.mem_iff
  have hp' : SharedPlaces ws' := fun w hw w' hw' => hp w ((hm w).mp hw) w' ((hm w').mp hw')
  obtain ⟨t, h1, h2, h3, h4⟩ := C99_place_by_place env hts ws' hv' (fun w hw => hs w ((hm w).mp hw)) n
    (hp'.placeByPlace (fun w hw => hn w ((hm w).mp hw))) o ho hf hseg
  refine ⟨t, h1, h2, h3, ?_⟩
  intro j c hc
  rw [h4 j c hc]
  constructor
  · rintro ⟨a, ha⟩
    exact ⟨a, fun w hw => ha w ((hm w).mpr hw)⟩
  · rintro ⟨a, ha⟩
    exact ⟨a, fun w hw => ha w ((hm w).mp hw)⟩

/-! ### Why not in general, and a case -/

/-- Two witnesses with three words each; those that they share are not in the same places, and the table has four columns. -/
theorem C99_moved : Valid [wordsWitness "A" ["a", "b", "c"], wordsWitness "B" ["b", "c", "d"]] ∧
    (∀ w ∈ [wordsWitness "A" ["a", "b", "c"], wordsWitness "B" ["b", "c", "d"]], (strings w).length = 3) ∧
    (collateTable exampleEnv [wordsWitness "A" ["a", "b", "c"], wordsWitness "B" ["b", "c", "d"]] { segmentation := false }).map tableSummary =
      .ok ⟨[true, false, false, true], [S "A", S "B"], [[some [S "a"], some [S "b"], some [S "c"], none],
        [none, some [S "b"], some [S "c"], some [S "d"]]]⟩ :=
  ⟨valid_of_check (by decide) (by decide) (by decide) (by decide), by decide, by decide +kernel⟩

/-- Three witnesses in which nothing but `c` is shared. -/
def sharedFirst : List Witness := [wordsWitness "A" ["a", "b"], wordsWitness "B" ["c", "d"], wordsWitness "C" ["c", "e"]]

/-- With segmentation a row may have gaps: `a b` goes into one cell, `c` and what follows it do not. -/
theorem C99_segmented : Valid sharedFirst ∧ PlaceByPlace 2 sharedFirst ∧
    (collateTable exampleEnv sharedFirst { segmentation := true }).map tableSummary =
      .ok ⟨[true, true], [S "A", S "B", S "C"], [[some [S "a", S "b"], none], [some [S "c"], some [S "d"]], [some [S "c"], some [S "e"]]]⟩ := by
  refine ⟨valid_of_check (by decide) (by decide) (by decide) (by decide), SharedPlaces.placeByPlace ?_ (by decide), by decide +kernel⟩
  intro w hw w' hw' i a ha hm
  have key : ∀ w ∈ sharedFirst, ∀ w' ∈ sharedFirst, ∀ i < (strings w).length, ∀ a ∈ strings w', (strings w)[i]? = some a → (strings w')[i]? = some a := by
    decide
  exact key w hw w' hw' i (List.getElem?_eq_some_iff.mp ha).1 a hm ha

/-- Three witnesses with a word twice, and a word in the third that only the second has. -/
def threePlaces : List Witness := [wordsWitness "A" ["the", "cat", "saw", "the", "dog"], wordsWitness "B" ["the", "man", "saw", "the", "dog"],
  wordsWitness "C" ["one", "man", "heard", "the", "bird"]]

/-- The hypotheses of C99 are met, and the table is as it says. -/
example : TopoSpec exampleEnv.topo ∧ Valid threePlaces ∧ PlaceByPlace 5 threePlaces ∧
    (collateTable exampleEnv threePlaces { segmentation := false }).map tableSummary =
      .ok ⟨[true, true, true, false, true], [S "A", S "B", S "C"],
        [[some [S "the"], some [S "cat"], some [S "saw"], some [S "the"], some [S "dog"]],
          [some [S "the"], some [S "man"], some [S "saw"], some [S "the"], some [S "dog"]],
          [some [S "one"], some [S "man"], some [S "heard"], some [S "the"], some [S "bird"]]]⟩ := by
  refine ⟨kahn_spec, valid_of_check (by decide) (by decide) (by decide) (by decide), ⟨by decide, ?_⟩, by decide +kernel⟩
  intro k w hw i a ha
  have key : (List.range 3).all (fun k => threePlaces[k]?.toList.all (fun w => (List.range 5).all (fun i => (strings w)[i]?.toList.all (fun a =>
      (threePlaces.take k).any (fun w' => decide ((strings w')[i]? = some a)) || (threePlaces.take k).all (fun w' => decide (a ∉ strings w')))))) = true := by
    decide
  simp only [List.all_eq_true, List.any_eq_true, Bool.or_eq_true, decide_eq_true_eq, List.mem_range] at key
  have hk := (List.getElem?_eq_some_iff.mp hw).1
  have hi := (List.getElem?_eq_some_iff.mp ha).1
  have hl : ∀ w ∈ threePlaces, (strings w).length = 5 := by decide
  rw [hl w (List.mem_of_getElem? hw)] at hi
  exact key k hk w (by rw [hw]; simp) i hi a (by rw [ha]; simp)

end CollateX
