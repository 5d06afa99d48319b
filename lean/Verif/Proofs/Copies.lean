import Verif.Proofs.Nested
/-
A witness whose strings are a subsequence of those of an earlier witness is aligned completely.
-/

namespace CollateX
open Spec

/-- An increasing list of numbers is a subsequence of the range it lies in. -/
theorem increasing_sublist : ∀ (n a : Nat) (rs : List Nat), rs.Pairwise (· < ·) → (∀ x ∈ rs, a ≤ x ∧ x < a + n) →
    rs.Sublist (List.range' a n)
  | 0, a, rs, _, h => by
    cases rs with
    | nil => simp
    | cons x xs => have := h x (by simp); omega
  | n + 1, a, rs, hp, h => by
    rw [List.range'_succ]
    cases rs with
    | nil => simp
    | cons x xs =>
      rw [List.pairwise_cons] at hp
      by_cases hx : x = a
      · subst hx
        refine List.Sublist.cons_cons _ (increasing_sublist n (x + 1) xs hp.2 ?_)
        intro y hy
        have h1 := hp.1 y hy
        have h2 := h y (by simp [hy])
        omega
      · refine List.Sublist.cons _ (increasing_sublist n (a + 1) (x :: xs) (List.pairwise_cons.mpr hp) ?_)
        intro y hy
        have h1 := h x (by simp)
        have h2 := h y hy
        rcases List.mem_cons.mp hy with rfl | hy
        · omega
        · have := hp.1 y hy
          omega

/-- Looking up an entry by its key in a list with increasing keys. -/
theorem find_increasing {α : Type} (k : α → Nat) : ∀ (l : List α), (l.map k).Pairwise (· < ·) → ∀ q ∈ l,
    l.find? (fun q' => decide (k q' = k q)) = some q
  | [], _, q, hq => by cases hq
  | a :: l, h, q, hq => by
    rw [List.map_cons, List.pairwise_cons] at h
    rw [List.find?_cons]
    rcases List.mem_cons.mp hq with rfl | hq'
    · simp
    · have := h.1 (k q) (List.mem_map.mpr ⟨q, hq', rfl⟩)
      have hd : decide (k a = k q) = false := decide_eq_false (by omega)
      rw [hd]
      exact find_increasing k l h.2 q hq'

section
variable {ts : TopoFn} {ti : TokenIndex} {s : AlignSt} {ps : List WPath} {w w0 : Witness} {P p : WPath} {rkf : VId → Nat}
  {o : List VId} {m : Nat} {r : Ranking} {cube : Cube} {cells : List (List Score)} {al : Dict Token VId} {k : Nat}

/-- A witness whose strings are a subsequence of those of an earlier witness is aligned completely. -/
theorem StepOf.aligned_of_sublist (L : Layout ti) (B : BlocksOK ti) (hs : AInv ti s ps) (hne : ps ≠ []) (hw : ti.ws[ps.length]? = some w)
    (hst : StepOf ts none ti s ps w P rkf o m r cube cells al) (hk : ti.ws[k]? = some w0) (hpk : ps[k]? = some p)
    (hsub : (w.tokens.map Token.str).Sublist (w0.tokens.map Token.str)) : ∀ t ∈ w.tokens, ∃ v ∈ s.g.vertices, dget al t = some v := by
  have hneg := hst.neg hs
  have hp := List.mem_of_getElem? hpk
  obtain ⟨cube', hc1, hiff⟩ := hs.cube L B hst.rank hw
  rw [hst.cube_ok] at hc1
  obtain rfl := Except.ok.inj hc1
  have hrd := (hs.reads k w0 p hk hpk).2
  have hedge : ∀ p ∈ s.g.pairs, rkf p.1 < rkf p.2 := fun p hp => hst.rank.isRank.lt hs.ginv.wf hp
  have hbd := hs.ginv.rank_bounds hne hedge
  have hinc : (p.segs.map (fun q => rkf q.1 - 1)).Pairwise (· < ·) := by
    have h1 := hs.ginv.path_increasing hedge hp
    unfold WPath.path at h1
    have h2 := (List.pairwise_append.mp (List.pairwise_cons.mp h1).2).1
    have h3 : ∀ v ∈ p.inner, 0 < rkf v := by
      intro v hv
      have := (List.pairwise_cons.mp h1).1 v (by simp [hv])
      omega
    unfold WPath.inner at h2 h3
    rw [List.pairwise_map] at h2 ⊢
    refine List.Pairwise.imp_of_mem ?_ h2
    intro a b ha hb hab
    have := h3 a.1 (List.mem_map.mpr ⟨a, ha, rfl⟩)
    omega
  have hem := hst.rank.lt_m hs.ginv.end_mem
  have hrange : ∀ q ∈ p.segs, 1 ≤ rkf q.1 ∧ rkf q.1 < m - 1 := by
    intro q hq
    obtain ⟨h1, h2, h3, _⟩ := hs.ginv.segs_in p hp q hq
    have := (hbd q.1 h1).1 h2
    have := (hbd q.1 h1).2 h3
    omega
  -- the string of the witness in a column
  obtain ⟨f, hf⟩ : ∃ f : Nat → Option Str, f = fun j => (p.segs.find? (fun q => decide (rkf q.1 - 1 = j))).map
    (fun q => (q.2.map Token.str).flatten) := ⟨_, rfl⟩
  have hfm : (p.segs.map (fun q => rkf q.1 - 1)).map f = (w0.tokens.map Token.str).map some := by
    have e1 : (w0.tokens.map Token.str).map some = (p.segs.map Prod.snd).map (fun l => some ((l.map Token.str).flatten)) := by
      rw [hrd]; simp
    rw [e1, List.map_map, List.map_map]
    apply List.map_congr_left
    intro q hq
    simp only [hf, Function.comp_apply]
    rw [find_increasing (fun q => rkf q.1 - 1) p.segs hinc q hq]
    rfl
  have hsub2 : ((w.tokens.map Token.str).map some).Sublist ((List.range' 0 (m - 2)).map f) := by
    refine (hsub.map some).trans ?_
    rw [← hfm]
    refine (increasing_sublist (m - 2) 0 _ hinc ?_).map f
    intro x hx
    obtain ⟨q, hq, rfl⟩ := List.mem_map.mp hx
    have := hrange q hq
    omega
  have hwid : rankCount s.g r = m - 2 + 1 := by
    rw [rankCount_eq hst.rank]
    have := (hbd endV hs.ginv.end_mem).1 (by decide)
    omega
  obtain ⟨ss, htr, hal⟩ := hst.trace
  rw [hwid, Nat.add_sub_cancel] at htr
  obtain ⟨steps, h1, h2⟩ := path_of_sublist cube.rel hsub2 0 0 (by
    intro i j a hi hj
    rw [Nat.zero_add, Nat.zero_add]
    rw [List.map_map, List.getElem?_map] at hi
    rw [List.getElem?_map] at hj
    obtain ⟨t, ht, rfl⟩ := Option.map_eq_some_iff.mp hi
    obtain ⟨j', hj', hj2⟩ := Option.map_eq_some_iff.mp hj
    clear hj
    have : j' = j := by
      have := (List.getElem?_eq_some_iff.mp hj').2
      simp only [List.getElem_range'] at this
      omega
    subst this
    rw [hf] at hj2
    obtain ⟨⟨v, us⟩, hq, he⟩ := Option.map_eq_some_iff.mp hj2
    have hqm := List.mem_of_find?_eq_some hq
    have hqr := List.find?_some hq
    simp only [decide_eq_true_eq] at hqr
    have hus : us ∈ p.segs.map Prod.snd := List.mem_map.mpr ⟨_, hqm, rfl⟩
    rw [hrd] at hus
    obtain ⟨t0, _, rfl⟩ := List.mem_map.mp hus
    have := (hrange _ hqm).1
    simp only at this
    refine (hiff (i : Int) (j' : Int)).mpr ⟨i, t, rfl, ht, p, hp, v, t0, hqm, by simpa using he, by omega⟩)
  simp only [Nat.zero_add, List.length_map, List.length_range'] at h1 h2
  obtain ⟨q1, _, q3⟩ := htr.tight hst.table hneg (by
    intro c hc
    have := hst.table.path_le hneg steps c (by rw [h1]; exact hc)
    omega)
  intro t ht
  obtain ⟨i, hi⟩ := List.getElem?_of_mem ht
  obtain ⟨c, hc, hty, hcy⟩ := q1 i (List.getElem?_eq_some_iff.mp hi).1
  obtain ⟨v, t', g1, _, _, g4, g5⟩ := hst.all L hs hw htr hal q3 c hc hty
  rw [hcy, Nat.add_sub_cancel, hi] at g1
  obtain rfl := Option.some.inj g1
  exact ⟨v, g4, g5⟩

/-- The vertices of the new path when every token is aligned are those of earlier paths. -/
theorem StepOf.no_new (hs : AInv ti s ps) {pf : Option PFilter} (hst : StepOf ts pf ti s ps w P rkf o m r cube cells al)
    (hall : ∀ t ∈ w.tokens, ∃ v ∈ s.g.vertices, dget al t = some v) : ∀ v ∈ P.inner, ∃ q ∈ ps, v ∈ q.inner := by
  intro v hv
  rw [hst.path] at hv
  obtain ⟨⟨v', us⟩, hm, rfl⟩ := List.mem_map.mp hv
  obtain ⟨t, ht, rfl, hc⟩ := newSegs_mem hm
  obtain ⟨v2, _, h2⟩ := hall t ht
  rcases hc with hc | ⟨hc, _⟩
  · obtain ⟨y, x, hd⟩ := hst.facts.src t v' hc
    obtain ⟨_, _, _, _, h3, h4, h5⟩ := hst.hit hs hd
    exact hs.ginv.cover v' h3 h4 h5
  · rw [hc] at h2; cases h2

end

end CollateX
