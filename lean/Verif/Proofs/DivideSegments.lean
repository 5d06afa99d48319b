import Verif.Proofs.DivideWork
import Verif.Props.CutSegmented
/-
The segment of a passage that all texts have.
-/

namespace CollateX
open Spec

variable {W : Work}

/-- What stands before a segment is not glued to it. -/
theorem Around.left_bound {h : Nat} {a r : List Nat} {gl gr : List (List Nat)} (A : Around W h a r gl gr) :
    ∀ y ∈ gl.flatten.getLast?, W.glued y h = false := by
  intro y hy
  have hb := List.isChain_getLast_head_splitBy W.glued r
  rw [A.split] at hb
  rcases List.eq_nil_or_concat gl with rfl | ⟨gl, g, rfl⟩
  · simp at hy
  · rw [List.concat_eq_append] at hb hy
    rw [List.append_assoc, List.singleton_append] at hb
    obtain ⟨h1, h2, h3⟩ := (List.isChain_cons_cons.mp (List.isChain_append.mp hb).2.1).1
    have : y = g.getLast h1 := by
      rw [List.flatten_append, List.flatten_singleton, List.getLast?_append_of_ne_nil _ h1, List.getLast?_eq_getLast_of_ne_nil h1] at hy
      exact (Option.some.inj hy).symm
    rw [this]
    exact h3

/-- A text has all nodes of a segment or none. -/
theorem glued_mem {r : List Nat} (hr : r ∈ W.rows) : ∀ {l : List Nat} {h : Nat}, (h :: l).IsChain (fun x y => W.glued x y = true) →
    ∀ x ∈ h :: l, (x ∈ r ↔ h ∈ r)
  | [], h, _, x, hx => by rw [List.mem_singleton.mp hx]
  | y :: l, h, hc, x, hx => by
    obtain ⟨h1, h2⟩ := List.isChain_cons_cons.mp hc
    rcases List.mem_cons.mp hx with rfl | hx
    · rfl
    · rw [glued_mem hr h2 x hx]
      rcases glued_rows.mp h1 r hr with ⟨h3, h4⟩ | ⟨i, h3, h4⟩
      · exact iff_of_false h4 h3
      · exact iff_of_true (List.mem_of_getElem? h4) (List.mem_of_getElem? h3)

/-- If all texts have a node, they have the same segment with it. -/
theorem Sound.segment_of (S : Sound W) {n : Nat} (hne : W.rows ≠ []) (hn : ∀ r ∈ W.rows, n ∈ r) :
    ∃ h a, n ∈ h :: a ∧ ∀ r ∈ W.rows, ∃ gl gr, Around W h a r gl gr := by
  obtain ⟨r1, hr1⟩ := List.exists_mem_of_ne_nil _ hne
  have hn1 := hn r1 hr1
  rw [← List.flatten_splitBy W.glued r1] at hn1
  obtain ⟨s, hs, hns⟩ := List.mem_flatten.mp hn1
  cases s with
  | nil => cases hns
  | cons h a =>
    obtain ⟨a', gl, gr, A⟩ := around_one (W := W) (n0 := h) (List.mem_map.mpr ⟨h :: a, hs, rfl⟩)
    have hch : (h :: a).IsChain (fun x y => W.glued x y = true) := List.isChain_of_mem_splitBy hs
    have hall : ∀ r ∈ W.rows, h ∈ r := fun r hr => (glued_mem hr hch n hns).mp (hn r hr)
    have hheads : ∀ r ∈ W.heads.rows, h ∈ r := by
      intro r' hr'
      rw [heads_rows] at hr'
      obtain ⟨r, hr, rfl⟩ := List.mem_map.mp hr'
      have hh := hall r hr
      rw [← List.flatten_splitBy W.glued r] at hh
      obtain ⟨s', hs', hh⟩ := List.mem_flatten.mp hh
      obtain ⟨u, v, rfl⟩ := List.append_of_mem hh
      rcases List.eq_nil_or_concat u with rfl | ⟨u, y, rfl⟩
      · exact List.mem_map.mpr ⟨_, hs', rfl⟩
      · exfalso
        have hc := List.isChain_of_mem_splitBy hs'
        rw [List.concat_eq_append, List.append_assoc, List.singleton_append] at hc
        have hg : W.glued y h = true := (List.isChain_cons_cons.mp (List.isChain_append.mp hc).2.1).1
        rcases glued_rows.mp hg r1 hr1 with ⟨_, h2⟩ | ⟨i, h1, h2⟩
        · exact h2 (hall r1 hr1)
        · have h3 : r1[gl.flatten.length]? = some h := by
            conv => lhs; rw [A.flat]
            simp
          have h4 := getElem_inj (S.nodup hr1) h2 h3
          have h5 : y ∈ gl.flatten.getLast? := by
            rw [List.getLast?_eq_getElem?, ← h4, Nat.add_sub_cancel]
            conv at h1 => lhs; rw [A.flat]
            rwa [List.append_assoc, List.getElem?_append_left (by omega)] at h1
          have := A.left_bound y h5
          rw [hg] at this
          cases this
    obtain ⟨a2, h2⟩ := S.around hne hheads
    refine ⟨h, a2, ?_, h2⟩
    obtain ⟨gl2, gr2, A2⟩ := h2 r1 hr1
    obtain ⟨gl', gr', he⟩ := List.append_of_mem hs
    have A1 : Around W h a r1 gl' gr' := by
      refine ⟨he, infix_splitBy (l := r1) ?_, infix_splitBy (l := r1) ?_, ?_⟩
      · rw [he]; exact (List.prefix_append _ _).isInfix
      · rw [he]; exact ⟨gl' ++ [h :: a], [], by simp⟩
      · conv => lhs; rw [← List.flatten_splitBy W.glued r1, he]
        simp
    have e1 : r1 = gl'.flatten ++ h :: (a ++ gr'.flatten) := by
      conv => lhs; rw [A1.flat]
      simp
    have e2 : r1 = gl2.flatten ++ h :: (a2 ++ gr2.flatten) := by
      conv => lhs; rw [A2.flat]
      simp
    have := S.same_segment hr1 hr1 a a2 gl'.flatten gl2.flatten gr'.flatten gr2.flatten h e1 e2
      A1.bound.1 A2.bound.1 A1.bound.2 A2.bound.2
    rw [← this]
    exact hns

section
variable {X : List Str} {n0 : Nat} {parts : List (List Str × List Str)} (S : Sound W)
  (hne : parts ≠ []) (hX : X ≠ []) (F : List.Forall₂ (HasPassage W X n0) parts W.rows)

include F in
theorem passage_glued {d : Nat} (hd : d + 1 < X.length) : W.glued (n0 + d) (n0 + (d + 1)) = true := by
  refine glued_rows.mpr fun r hr => Or.inr ?_
  obtain ⟨p, _, hp⟩ := row_part F hr
  exact ⟨p.1.length + d, hp.nodes d (by omega), hp.nodes (d + 1) hd⟩

include S hne hX F in
/-- The words of the passage stand in one segment. -/
theorem passage_segment : ∃ h a j, (∀ r ∈ W.rows, ∃ gl gr, Around W h a r gl gr) ∧ ∀ d < X.length, (h :: a)[j + d]? = some (n0 + d) := by
  have hpos : 0 < X.length := List.length_pos_iff.mpr hX
  have hl := F.length_eq
  have hrows : W.rows ≠ [] := by
    intro h
    rw [h] at hl
    exact hne (List.length_eq_zero_iff.mp hl)
  obtain ⟨h, a, hm, hA⟩ := S.segment_of hrows (n := n0) (fun r hr => by
    obtain ⟨p, _, hp⟩ := row_part F hr
    exact hp.mem hpos)
  obtain ⟨j, hj⟩ := List.getElem?_of_mem hm
  refine ⟨h, a, j, hA, ?_⟩
  obtain ⟨r, hr⟩ := List.exists_mem_of_ne_nil _ hrows
  obtain ⟨gl, gr, A⟩ := hA r hr
  obtain ⟨p, _, hp⟩ := row_part F hr
  intro d
  induction d with
  | zero => intro _; exact hj
  | succ d ih =>
    intro hd
    have h1 := ih (by omega)
    have hjd := (List.getElem?_eq_some_iff.mp h1).1
    have hpl : r[gl.flatten.length + (j + d)]? = some (n0 + d) := by
      conv => lhs; rw [A.flat]
      rw [List.append_assoc, List.getElem?_append_right (by omega), Nat.add_sub_cancel_left, List.getElem?_append_left hjd, h1]
    have h2 := getElem_inj (S.nodup hr) hpl (hp.nodes d (by omega))
    have h3 := hp.nodes (d + 1) hd
    rw [show p.1.length + (d + 1) = gl.flatten.length + (j + (d + 1)) by omega] at h3
    conv at h3 => lhs; rw [A.flat]
    rw [List.append_assoc, List.getElem?_append_right (by omega), Nat.add_sub_cancel_left] at h3
    rcases Nat.lt_or_ge (j + (d + 1)) (h :: a).length with h4 | h4
    · rwa [List.getElem?_append_left h4] at h3
    · exfalso
      rw [List.getElem?_append_right h4, show j + (d + 1) - (h :: a).length = 0 by omega] at h3
      have h5 := A.bound.2 (n0 + (d + 1)) (by rw [List.head?_eq_getElem?]; exact h3)
      have h6 : (h :: a).getLast (by simp) = n0 + d := by
        rw [List.getLast_eq_getElem]
        have := (List.getElem?_eq_some_iff.mp h1).2
        rw [← this]
        congr 1
        omega
      rw [h6, passage_glued F hd] at h5
      cases h5

include S hne hX F in
/-- The column of the passage in the table of segments. -/
theorem passage_segmented (SH : Sound W.heads) : ∃ x H1 H2, W.heads.variantAt (x + 1) = false ∧
    ∀ r ∈ W.shownSegmented, r[x]? = some (false, some (H1 ++ X ++ H2)) := by
  have hpos : 0 < X.length := List.length_pos_iff.mpr hX
  obtain ⟨h, a, j, hA, hj⟩ := passage_segment S hne hX F
  have hl := F.length_eq
  have hrows : W.rows ≠ [] := by
    intro h
    rw [h] at hl
    exact hne (List.length_eq_zero_iff.mp hl)
  have hmem : ∀ r ∈ W.rows, h ∈ (r.splitBy W.glued).map Work.first := by
    intro r hr
    obtain ⟨gl, gr, A⟩ := hA r hr
    exact List.mem_map.mpr ⟨h :: a, by rw [A.split]; simp, rfl⟩
  obtain ⟨r1, hr1⟩ := List.exists_mem_of_ne_nil _ hrows
  have hhr : ∀ {r : List Nat}, r ∈ W.rows → (r.splitBy W.glued).map Work.first ∈ W.heads.rows := by
    intro r hr
    rw [heads_rows]
    exact List.mem_map_of_mem hr
  have hused : W.heads.Used h := ⟨_, hhr hr1, hmem r1 hr1⟩
  obtain ⟨hc1, hc2⟩ := SH.column_le hused
  have hvar : W.heads.variantAt (W.heads.column h - 1 + 1) = false := by
    refine variantAt_false.mpr ⟨h, SH.bound _ hused, fun r' hr' => ?_⟩
    rw [heads_rows] at hr'
    obtain ⟨r, hr, rfl⟩ := List.mem_map.mp hr'
    exact (SH.nodeAt_iff (hhr hr)).mpr ⟨hmem r hr, by omega⟩
  have hword : ∀ d < X.length, W.words[n0 + d]? = X[d]? := by
    intro d hd
    obtain ⟨p, _, hp⟩ := row_part F hr1
    rw [(hp.word (hp.nodes d hd)).1, passage_get hd]
  have hjl := (List.getElem?_eq_some_iff.mp (hj (X.length - 1) (by omega))).1
  have hmid : ((h :: a).drop j).take X.length = (List.range X.length).map (n0 + ·) := by
    apply List.ext_getElem?
    intro d
    rcases Nat.lt_or_ge d X.length with hd | hd
    · rw [List.getElem?_take_of_lt hd, List.getElem?_drop, hj d hd, List.getElem?_map, List.getElem?_range hd]
      rfl
    · rw [List.getElem?_eq_none (by rw [List.length_take]; omega), List.getElem?_eq_none (by simpa using hd)]
  have hXw : ((List.range X.length).map (n0 + ·)).filterMap (fun n => W.words[n]?) = X := by
    rw [List.filterMap_map]
    have : (List.range X.length).filterMap ((fun n => W.words[n]?) ∘ (n0 + ·)) = (List.range X.length).filterMap (fun d => X[d]?) := by
      apply List.filterMap_congr
      intro d hd
      exact hword d (List.mem_range.mp hd)
    rw [this]
    have e : (List.range X.length).map (fun d => X[d]?) = X.map some := by
      apply List.ext_getElem (by simp)
      intro i h1 h2
      rw [List.length_map, List.length_range] at h1
      simp [h1]
    have : (List.range X.length).filterMap (fun d => X[d]?) = ((List.range X.length).map (fun d => X[d]?)).filterMap id := by rw [List.filterMap_map]; rfl
    rw [this, e]
    simp
  refine ⟨W.heads.column h - 1, ((h :: a).take j).filterMap (fun n => W.words[n]?), (((h :: a).drop j).drop X.length).filterMap (fun n => W.words[n]?),
    hvar, ?_⟩
  intro r' hr'
  unfold Work.shownSegmented Work.segments at hr'
  rw [List.map_map] at hr'
  obtain ⟨r, hr, rfl⟩ := List.mem_map.mp hr'
  simp only [Function.comp]
  rw [List.getElem?_map, List.getElem?_range (by omega), Option.map_some, hvar]
  obtain ⟨gl, gr, A⟩ := hA r hr
  have hfind : (r.splitBy W.glued).find? (fun s => decide (W.heads.column (Work.first s) = W.heads.column h - 1 + 1)) = some (h :: a) := by
    cases hf : (r.splitBy W.glued).find? (fun s => decide (W.heads.column (Work.first s) = W.heads.column h - 1 + 1)) with
    | none =>
      have := List.find?_eq_none.mp hf (h :: a) (by rw [A.split]; simp)
      exfalso
      apply this
      simp only [decide_eq_true_eq]
      change W.heads.column h = _
      omega
    | some s =>
      have hs := List.mem_of_find?_eq_some hf
      have hcol : W.heads.column (Work.first s) = W.heads.column h := by
        have := List.find?_some hf
        simp only [decide_eq_true_eq] at this
        omega
      have hsame := SH.same_row (hhr hr) (List.mem_map_of_mem hs) (hmem r hr) hcol
      have hnd := SH.nodup (hhr hr)
      obtain ⟨i, hi⟩ := List.getElem?_of_mem hs
      obtain ⟨i', hi'⟩ := List.getElem?_of_mem (show h :: a ∈ r.splitBy W.glued by rw [A.split]; simp)
      have h1 : ((r.splitBy W.glued).map Work.first)[i]? = some h := by rw [List.getElem?_map, hi, Option.map_some, hsame]
      have h2 : ((r.splitBy W.glued).map Work.first)[i']? = some h := by rw [List.getElem?_map, hi', Option.map_some]; rfl
      have := getElem_inj hnd h1 h2
      subst this
      rw [← hi, hi']
  rw [hfind, Option.map_some]
  congr 3
  conv => lhs; rw [← List.take_append_drop j (h :: a), ← List.take_append_drop X.length ((h :: a).drop j), hmid]
  rw [List.filterMap_append, List.filterMap_append, hXw, List.append_assoc]

end

end CollateX
