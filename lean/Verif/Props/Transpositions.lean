import Verif.Proofs.Transpositions
import Verif.Props.Phrases
import Verif.Model.Kahn
/-
C79: the phrases that are transposed.
-/

namespace CollateX

namespace Spec

/-- The rank at which a phrase begins. -/
def firstRank (rank : Nat → Option Nat) (pm : List (Nat × Token)) : Option Nat := pm.head?.bind (fun p => rank p.1)

/-- The phrases of a witness in a graph: each begins at a vertex that has a rank, and no two begin with the same token at the same
vertex. -/
structure PhrasesOf (rank : Nat → Option Nat) (pms : List (List (Nat × Token))) : Prop where
  ranked : ∀ pm ∈ pms, ∃ n, firstRank rank pm = some n
  distinct : (pms.map List.head?).Nodup

/-- The first phrase does not begin after the second in the graph. -/
def NotAfter (rank : Nat → Option Nat) (x y : List (Nat × Token)) : Prop :=
  ∃ a b, firstRank rank x = some a ∧ firstRank rank y = some b ∧ a ≤ b

/-- The phrase stands before another one in the witness and after it in the graph, or the other way round. -/
def Crosses (rank : Nat → Option Nat) (pms : List (List (Nat × Token))) (x : List (Nat × Token)) : Prop :=
  ∃ y a b, firstRank rank x = some a ∧ firstRank rank y = some b ∧ (([x, y].Sublist pms ∧ b < a) ∨ ([y, x].Sublist pms ∧ a < b))

end Spec

open Spec

/-- The first pair and the rank as functions. -/
theorem phrasesOf_functions {rk : Ranking} {pms : List PhraseMatch} (hp : PhrasesOf (dget rk.byVertex) pms) (hne : pms ≠ []) :
    ∃ (f : PhraseMatch → VId × Token) (r : PhraseMatch → Nat), (∀ pm ∈ pms, lgetE pm 0 = .ok (f pm)) ∧
      (∀ pm ∈ pms, dgetE rk.byVertex (f pm).1 = .ok (r pm)) ∧ (pms.map f).Nodup ∧
      ∀ pm ∈ pms, firstRank (dget rk.byVertex) pm = some (r pm) := by
  have hh : ∀ pm ∈ pms, ∃ q, pm.head? = some q := by
    intro pm hpm
    obtain ⟨n, hn⟩ := hp.ranked pm hpm
    obtain ⟨q, hq, _⟩ := Option.bind_eq_some_iff.mp hn
    exact ⟨q, hq⟩
  obtain ⟨pm0, hpm0⟩ := List.exists_mem_of_ne_nil pms hne
  obtain ⟨q0, hq0⟩ := hh pm0 hpm0
  have hf : ∀ pm ∈ pms, pm.head? = some (pm.head?.getD q0) := by
    intro pm hpm
    obtain ⟨q, hq⟩ := hh pm hpm
    rw [hq]
    rfl
  have hr : ∀ pm ∈ pms, firstRank (dget rk.byVertex) pm = some ((firstRank (dget rk.byVertex) pm).getD 0) := by
    intro pm hpm
    obtain ⟨n, hn⟩ := hp.ranked pm hpm
    rw [hn]
    rfl
  refine ⟨fun pm => pm.head?.getD q0, fun pm => (firstRank (dget rk.byVertex) pm).getD 0, ?_, ?_, ?_, hr⟩
  · intro pm hpm
    rw [lgetE_eq_ok, ← List.head?_eq_getElem?]
    exact hf pm hpm
  · intro pm hpm
    obtain ⟨n, hn⟩ := hp.ranked pm hpm
    have h1 := hn
    unfold firstRank at h1
    rw [hf pm hpm] at h1
    simp only [Option.bind_some] at h1
    unfold dgetE
    simp only [h1, hn]
    rfl
  · have : (pms.map (fun pm => pm.head?.getD q0)).map some = pms.map List.head? := by
      rw [List.map_map]
      apply List.map_congr_left
      intro pm hpm
      exact (hf pm hpm).symm
    exact List.Nodup.of_map some (by rw [this]; exact hp.distinct)

/-- C79 under Python 2.7: the detector succeeds. It divides the phrases: those that are not reported stand in the witness in the order
of the graph, and each one that is reported crosses another phrase. -/
theorem C79_rest_in_order_partial (rk : Ranking) (pms : List PhraseMatch) (hp : PhrasesOf (dget rk.byVertex) pms) :
    ∃ ts rest, detectTranspositions false rk pms = .ok ts ∧ rest.Sublist pms ∧ (rest ++ ts).Perm pms ∧
      rest.Pairwise (NotAfter (dget rk.byVertex)) ∧ ∀ x ∈ ts, Crosses (dget rk.byVertex) pms x := by
  by_cases he : pms = []
  · subst he
    exact ⟨[], [], rfl, List.Sublist.refl _, List.Perm.refl _, List.Pairwise.nil, by simp⟩
  obtain ⟨f, r, h1, h2, h3, h4⟩ := phrasesOf_functions hp he
  obtain ⟨ts, rest, e1, e2, e3, e4, e5⟩ := detect_ok h1 h2 h3
  refine ⟨ts, rest, e1, e2, e3, ?_, ?_⟩
  · refine e4.imp_of_mem ?_
    intro x y hx hy h
    exact ⟨r x, r y, h4 x (e2.subset hx), h4 y (e2.subset hy), h⟩
  · intro x hx
    obtain ⟨y, h⟩ := e5 x hx
    have hm : x ∈ pms ∧ y ∈ pms := by
      rcases h with ⟨h, _⟩ | ⟨h, _⟩
      · exact ⟨h.subset (by simp), h.subset (by simp)⟩
      · exact ⟨h.subset (by simp), h.subset (by simp)⟩
    exact ⟨y, r x, r y, h4 x hm.1, h4 y hm.2, h⟩

/-- C79 under Python 2.7: nothing is reported exactly if the phrases are in the order of the graph. -/
theorem C79_none_iff_partial (rk : Ranking) (pms : List PhraseMatch) (hp : PhrasesOf (dget rk.byVertex) pms) :
    detectTranspositions false rk pms = .ok [] ↔ pms.Pairwise (NotAfter (dget rk.byVertex)) := by
  obtain ⟨ts, rest, e1, e2, e3, e4, e5⟩ := C79_rest_in_order_partial rk pms hp
  rw [e1]
  constructor
  · intro h
    injection h with h
    subst h
    rw [List.append_nil] at e3
    rwa [e2.eq_of_length e3.length_eq] at e4
  · intro h
    cases ts with
    | nil => rfl
    | cons x ts =>
      exfalso
      obtain ⟨y, a, b, ha, hb, hc⟩ := e5 x (by simp)
      rcases hc with ⟨hs, hlt⟩ | ⟨hs, hlt⟩
      · obtain ⟨a', b', ha', hb', hle⟩ := (List.pairwise_cons.mp (h.sublist hs)).1 y (by simp)
        rw [ha] at ha'
        rw [hb] at hb'
        have := Option.some.inj ha'
        have := Option.some.inj hb'
        omega
      · obtain ⟨b', a', hb', ha', hle⟩ := (List.pairwise_cons.mp (h.sublist hs)).1 x (by simp)
        rw [ha] at ha'
        rw [hb] at hb'
        have := Option.some.inj ha'
        have := Option.some.inj hb'
        omega

/-- The phrases that `PhraseMatchDetector` finds meet the hypothesis, if the tokens are distinct and their vertices have ranks. -/
theorem C79_found_phrases (rank : Nat → Option Nat) (linked : Dict Token VId) (g : VGraph) (tokens : List Token) (hnd : tokens.Nodup)
    (hr : ∀ t ∈ tokens, ∀ v, dget linked t = some v → ∃ n, rank v = some n) : PhrasesOf rank (foundPhrases linked g tokens) := by
  have hflat : ∀ l : List Token, (runs (neighbours (dget linked) g) l).flatten = l := by
    intro l
    induction l with
    | nil => rfl
    | cons a l ih =>
      rw [runs]
      split
      · rename_i b r rest h
        rw [h] at ih
        split
        · rw [← ih]; rfl
        · rw [← ih]; rfl
      · rename_i h
        rw [List.flatten_cons, ih]
        rfl
  have hall : (foundPhrases linked g tokens).flatten.Sublist (tokens.filterMap (fun t => (dget linked t).map (fun v => (v, t)))) := by
    rw [C70_found]
    unfold phrases
    conv_rhs => rw [← hflat tokens]
    rw [List.filterMap_flatten, List.flatten_filter_ne_nil]
  have hne : ∀ pm ∈ foundPhrases linked g tokens, pm ≠ [] := by
    intro pm hpm
    rw [C70_found] at hpm
    unfold phrases at hpm
    simpa using (List.mem_filter.mp hpm).2
  have hpn : (foundPhrases linked g tokens).flatten.Nodup := by
    refine List.Nodup.sublist hall (List.Nodup.filterMap ?_ hnd)
    intro a a' b hb hb'
    obtain ⟨v, _, e1⟩ := Option.map_eq_some_iff.mp (Option.mem_def.mp hb)
    obtain ⟨v', _, e2⟩ := Option.map_eq_some_iff.mp (Option.mem_def.mp hb')
    rw [← e2] at e1
    exact (Prod.mk.injEq .. ▸ e1).2
  generalize foundPhrases linked g tokens = pms at *
  constructor
  · intro pm hpm
    cases pm with
    | nil => exact absurd rfl (hne _ hpm)
    | cons q l =>
      have hq : q ∈ pms.flatten := List.mem_flatten.mpr ⟨_, hpm, by simp⟩
      obtain ⟨t, ht, e⟩ := List.mem_filterMap.mp (hall.subset hq)
      obtain ⟨v, hv, rfl⟩ := Option.map_eq_some_iff.mp e
      exact hr t ht v hv
  · clear hall
    induction pms with
    | nil => exact List.nodup_nil
    | cons pm pms ih =>
      rw [List.flatten_cons, List.nodup_append] at hpn
      rw [List.map_cons, List.nodup_cons]
      refine ⟨?_, ih (fun p hp => hne p (by simp [hp])) hpn.2.1⟩
      intro hm
      obtain ⟨p, hp, he⟩ := List.mem_map.mp hm
      cases pm with
      | nil => exact absurd rfl (hne _ (by simp))
      | cons q l =>
        cases p with
        | nil => cases he
        | cons q' l' =>
          rw [List.head?_cons, List.head?_cons] at he
          have he := Option.some.inj he
          subst he
          exact hpn.2.2 q' (by simp) q' (List.mem_flatten.mpr ⟨_, hp, by simp⟩) rfl

/-- C79 fails under Python 3: `sorted` has no parameter `cmp`, and any phrase at all is an error. -/
theorem C79_python3 (rk : Ranking) (pms : List PhraseMatch) (h : pms ≠ []) : detectTranspositions true rk pms = .error .typeError := by
  unfold detectTranspositions
  rw [if_neg h]
  rfl

theorem sortCmp_pair {α : Type} (cmp : α → α → Int) (x y : α) : sortCmp cmp [x, y] = if cmp x y ≤ 0 then [x, y] else [y, x] := rfl

/-- C79 under Python 2.7, two phrases that have changed places: the shorter one is reported, the first if they are as long as each
other. -/
theorem C79_swap_partial (rk : Ranking) (x y : PhraseMatch) (hp : PhrasesOf (dget rk.byVertex) [x, y])
    (h : ¬ NotAfter (dget rk.byVertex) x y) :
    detectTranspositions false rk [x, y] = .ok [if y.length < x.length then y else x] := by
  obtain ⟨f, r, h1, h2, h3, h4⟩ := phrasesOf_functions hp (by simp)
  have hlt : r y < r x := by
    by_contra hge
    exact h ⟨r x, r y, h4 x (by simp), h4 y (by simp), by omega⟩
  have hne : f x ≠ f y := by
    simpa using h3
  have hxy : x ≠ y := fun e => hne (by rw [e])
  have hfx := h1 x (by simp)
  have hfy := h1 y (by simp)
  have hrx := h2 x (by simp)
  have hry := h2 y (by simp)
  have hord : graphOrder rk [x, y] = .ok [y, x] := by
    unfold graphOrder
    rw [if_neg (by simp)]
    unfold mapE mapE mapE phraseKey
    rw [hfx, bind_ok, hrx, bind_ok, bind_ok, hfy, bind_ok, hry, bind_ok, bind_ok, bind_ok, bind_ok, bind_ok, sortCmp_pair]
    rw [if_neg]
    · rfl
    · rw [comparePhrases_le]
      simp only
      omega
  have hix : phraseIndex [y, x] 0 [] = .ok [(f y, 0), (f x, 1)] := by
    unfold phraseIndex phraseIndex phraseIndex
    rw [hfy, bind_ok, hfx, bind_ok]
    simp [dset, Ne.symm hne]
  have hdx : dgetE [(f y, 0), (f x, 1)] (f x) = .ok 1 := by simp [dgetE, dget, Ne.symm hne]
  have hdy : dgetE [(f y, 0), (f x, 1)] (f y) = .ok 0 := by simp [dgetE, dget]
  have hw : mapE (fun pm => do
      let first ← lgetE pm 0
      dgetE [(f y, 0), (f x, 1)] first) [x, y] = .ok [1, 0] := by
    unfold mapE mapE mapE
    rw [hfx, bind_ok, hdx, bind_ok, hfy, bind_ok, hdy, bind_ok, bind_ok, bind_ok]
  have hdist : phraseDistances [0, 1] [1, 0] [x, y] 0 [] = .ok [(f x, 1), (f y, 1)] := by
    unfold phraseDistances phraseDistances phraseDistances
    rw [lgetE_eq_ok.mpr rfl, bind_ok, lgetE_eq_ok.mpr rfl, bind_ok, hfx, bind_ok, lgetE_eq_ok.mpr rfl, bind_ok, lgetE_eq_ok.mpr rfl, bind_ok,
      hfy, bind_ok]
    simp [dset, hne]
  have hex : dgetE [(f x, 1), (f y, 1)] (f x) = .ok 1 := by simp [dgetE, dget]
  have hey : dgetE [(f x, 1), (f y, 1)] (f y) = .ok 1 := by simp [dgetE, dget, hne]
  have hfar : farthest [(f x, 1), (f y, 1)] [x, y] = .ok (if y.length < x.length then y else x) := by
    unfold farthest
    rw [mapE_ok (g := fun pm => (1, pm)) (by
      intro pm hpm
      rcases List.mem_cons.mp hpm with rfl | hpm
      · rw [hfx, bind_ok, hex, bind_ok]
      · rw [List.mem_singleton] at hpm
        subst hpm
        rw [hfy, bind_ok, hey, bind_ok]), bind_ok]
    rw [List.map_cons, List.map_cons, List.map_nil, sortCmp_pair]
    by_cases hl : y.length < x.length
    · rw [if_neg (by rw [compareDistances_le]; simp only; omega), if_pos hl]
      rfl
    · rw [if_pos (by rw [compareDistances_le]; exact Or.inr ⟨rfl, Nat.le_of_not_lt hl⟩), if_neg hl]
      rfl
  have hround : ∃ s, transRound [y, x] [(f y, 0), (f x, 1)] ⟨[0, 1], [1, 0], [x, y], []⟩ = .ok (some s) ∧
      s.found = [if y.length < x.length then y else x] ∧ ∃ n z, s.graphIx = [n] ∧ s.witnessIx = [n] ∧ s.left = [z] ∧ lgetE z 0 = .ok (f z) := by
    unfold transRound
    rw [hdist, bind_ok, if_neg (by simp), hfar, bind_ok]
    by_cases hl : y.length < x.length
    · simp only [if_pos hl]
      rw [hfy, bind_ok, hdy, bind_ok]
      refine ⟨⟨[1], [1], [x], [y]⟩, ?_, rfl, 1, x, rfl, rfl, rfl, hfx⟩
      have ha : addTransposition [(f y, 0), (f x, 1)] ⟨[0, 1], [1, 0], [x, y], []⟩ y = .ok ⟨[1], [1], [x], [y]⟩ := by
        unfold addTransposition
        rw [hfy, bind_ok, hdy, bind_ok]
        simp only
        rw [show removeE [x, y] y = .ok [x] by simp [removeE, List.erase_cons, hxy], bind_ok, show removeE [0, 1] 0 = .ok [1] by decide, bind_ok,
          show removeE [1, 0] 0 = .ok [1] by decide, bind_ok]
        rfl
      rw [show indexE [0, 1] 0 = .ok 0 by decide, bind_ok, show lgetE [1, 0] 0 = .ok 1 from rfl, bind_ok, show lgetE [y, x] 1 = .ok x from rfl,
        bind_ok, ha, bind_ok, hey, bind_ok, hfx, bind_ok, hex, bind_ok, if_neg (by omega)]
    · simp only [if_neg hl]
      rw [hfx, bind_ok, hdx, bind_ok]
      refine ⟨⟨[0], [0], [y], [x]⟩, ?_, rfl, 0, y, rfl, rfl, rfl, hfy⟩
      have ha : addTransposition [(f y, 0), (f x, 1)] ⟨[0, 1], [1, 0], [x, y], []⟩ x = .ok ⟨[0], [0], [y], [x]⟩ := by
        unfold addTransposition
        rw [hfx, bind_ok, hdx, bind_ok]
        simp only
        rw [show removeE [x, y] x = .ok [y] by simp [removeE], bind_ok, show removeE [0, 1] 1 = .ok [0] by decide, bind_ok,
          show removeE [1, 0] 1 = .ok [0] by decide, bind_ok]
        rfl
      rw [show indexE [0, 1] 1 = .ok 1 by decide, bind_ok, show lgetE [1, 0] 1 = .ok 0 from rfl, bind_ok, show lgetE [y, x] 0 = .ok y from rfl,
        bind_ok, ha, bind_ok, hex, bind_ok, hfy, bind_ok, hey, bind_ok, if_neg (by omega)]
  obtain ⟨s, hs1, hs2, n, z, hs3, hs4, hs5, hs6⟩ := hround
  have hlast : transRound [y, x] [(f y, 0), (f x, 1)] s = .ok none := by
    unfold transRound
    rw [hs3, hs4, hs5]
    unfold phraseDistances phraseDistances
    rw [show lgetE [n] 0 = .ok n from rfl, bind_ok, bind_ok, hs6, bind_ok, bind_ok, if_pos (by simp [dset])]
  unfold detectTranspositions
  rw [if_neg (by simp), if_neg (by simp), hord, bind_ok, hix, bind_ok, hw, bind_ok]
  have hloop : transLoop [y, x] [(f y, 0), (f x, 1)] 3 ⟨[0, 1], [1, 0], [x, y], []⟩ = .ok s := by
    unfold transLoop transLoop
    rw [hs1, bind_ok]
    simp only
    rw [hlast, bind_ok]
  show (transLoop [y, x] [(f y, 0), (f x, 1)] 3 ⟨[0, 1], [1, 0], [x, y], []⟩ >>= fun s => Except.ok s.found) = _
  rw [hloop, bind_ok, hs2]

/-! ### Cases -/

/-- The graph of `a x b y c z d`. -/
def spacedGraph : VGraph :=
  (merge VGraph.init (S "A") [⟨S "a", []⟩, ⟨S "x", []⟩, ⟨S "b", []⟩, ⟨S "y", []⟩, ⟨S "c", []⟩, ⟨S "z", []⟩, ⟨S "d", []⟩] []).1

/-- Its ranking. -/
def spacedRanking : Ranking := (rankingOf kahn spacedGraph).toOption.getD ⟨[], []⟩

/-- Four tokens of another witness and their vertices. -/
def spacedLinks : Dict Token VId := [(bTok "a", 2), (bTok "b", 4), (bTok "c", 6), (bTok "d", 8)]

/-- The ranking of `a b c`. -/
def abcRanking : Ranking := (rankingOf kahn abcGraph).toOption.getD ⟨[], []⟩

/-- A case of `C79_found_phrases`, and so of the theorems before it: `b c a` against `a b c`. -/
example : [bTok "b", bTok "c", bTok "a"].Nodup ∧
    ∀ t ∈ [bTok "b", bTok "c", bTok "a"], ∀ v, dget abcLinks t = some v → ∃ n, dget abcRanking.byVertex v = some n := by
  have h : ∀ t ∈ [bTok "b", bTok "c", bTok "a"], ((dget abcLinks t).bind (dget abcRanking.byVertex)).isSome := by decide +kernel
  refine ⟨by decide +kernel, ?_⟩
  intro t ht v hv
  have := h t ht
  rw [hv, Option.bind_some] at this
  exact Option.isSome_iff_exists.mp this

/-- There the shorter phrase is reported: `a`. -/
example : foundPhrases abcLinks abcGraph [bTok "b", bTok "c", bTok "a"] = [[(3, bTok "b"), (4, bTok "c")], [(2, bTok "a")]] ∧
    (detectTranspositions false abcRanking (foundPhrases abcLinks abcGraph [bTok "b", bTok "c", bTok "a"])).toOption =
      some [[(2, bTok "a")]] := by
  decide +kernel

/-- C79 does not report as few phrases as it could: of `c d a b` against `a x b y c z d` all four are reported, though the two phrases
`c` and `d` are in order, and to report `a` and `b` would do. -/
theorem C79_not_minimal :
    foundPhrases spacedLinks spacedGraph [bTok "c", bTok "d", bTok "a", bTok "b"] =
      [[(6, bTok "c")], [(8, bTok "d")], [(2, bTok "a")], [(4, bTok "b")]] ∧
    (detectTranspositions false spacedRanking [[(6, bTok "c")], [(8, bTok "d")], [(2, bTok "a")], [(4, bTok "b")]]).toOption =
      some [[(6, bTok "c")], [(2, bTok "a")], [(8, bTok "d")], [(4, bTok "b")]] ∧
    NotAfter (dget spacedRanking.byVertex) [(6, bTok "c")] [(8, bTok "d")] := by
  refine ⟨by decide +kernel, by decide +kernel, 5, 7, by decide +kernel, by decide +kernel, by omega⟩

end CollateX
