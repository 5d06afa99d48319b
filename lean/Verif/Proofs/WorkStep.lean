import Verif.Proofs.WorkCut
/-
A further text is collated on both sides of a node that stands in every text.
-/

namespace CollateX
open Spec

section
variable {W V : Work} {f : Nat → Nat} {n0 : Nat} {B : List Str} (S : Sound W) (h0 : ∀ r ∈ W.rows, n0 ∈ r) (hW : ∀ n < W.words.length, W.Used n)
  (hV : ∀ n < V.words.length, V.Used n)
include S h0 hV

include hW in
theorem PartOf.left_fits (P : PartOf (leftOf n0) W V f) {x : Nat} {b : Str} (hx : x + 1 < W.column n0) {n : Nat} :
    n ∈ W.fits x b ↔ ∃ k ∈ V.fits x b, f k = n := by
  constructor
  · intro hn
    obtain ⟨h1, h2, h3⟩ := mem_fits.mp hn
    obtain ⟨k, hk, rfl⟩ := P.left_from S h0 (hW n h1) (by omega)
    exact ⟨k, mem_fits.mpr ⟨P.bound k hk, by rw [P.left_column S h0 k hk, h2], by rw [P.words k hk, h3]⟩, rfl⟩
  · rintro ⟨k, hk, rfl⟩
    obtain ⟨h1, h2, h3⟩ := mem_fits.mp hk
    have hu := hV k h1
    exact mem_fits.mpr ⟨S.bound _ (P.left_used S h0 hu).1, by rw [← P.left_column S h0 k hu, h2], by rw [← P.words k hu, h3]⟩

include hW in
theorem PartOf.right_fits (P : PartOf (rightOf n0) W V f) {x : Nat} {b : Str} {n : Nat} :
    n ∈ W.fits (W.column n0 + x) b ↔ ∃ k ∈ V.fits x b, f k = n := by
  constructor
  · intro hn
    obtain ⟨h1, h2, h3⟩ := mem_fits.mp hn
    obtain ⟨k, hk, rfl⟩ := P.right_from S h0 (hW n h1) (by omega)
    exact ⟨k, mem_fits.mpr ⟨P.bound k hk, by have := P.right_column S h0 k hk; omega, by rw [P.words k hk, h3]⟩, rfl⟩
  · rintro ⟨k, hk, rfl⟩
    obtain ⟨h1, h2, h3⟩ := mem_fits.mp hk
    have hu := hV k h1
    exact mem_fits.mpr ⟨S.bound _ (P.right_used S h0 hu).1, by have := P.right_column S h0 k hu; omega, by rw [← P.words k hu, h3]⟩

include hW in
theorem PartOf.left_same (P : PartOf (leftOf n0) W V f) {x j j0 : Nat} (hx : x + 1 < W.column n0) (hj : j < j0) :
    W.same B x j = V.same (B.take j0) x j := by
  rw [Bool.eq_iff_iff, same_iff, same_iff, List.getElem?_take_of_lt hj]
  constructor
  · rintro ⟨b, n, h1, h2⟩
    obtain ⟨k, hk, _⟩ := (P.left_fits S h0 hW hV hx).mp h2
    exact ⟨b, k, h1, hk⟩
  · rintro ⟨b, k, h1, h2⟩
    exact ⟨b, f k, h1, (P.left_fits S h0 hW hV hx).mpr ⟨k, h2, rfl⟩⟩

include hW in
theorem PartOf.right_same (P : PartOf (rightOf n0) W V f) {x j j0 : Nat} : W.same B (W.column n0 + x) (j0 + j) = V.same (B.drop j0) x j := by
  rw [Bool.eq_iff_iff, same_iff, same_iff, List.getElem?_drop]
  constructor
  · rintro ⟨b, n, h1, h2⟩
    obtain ⟨k, hk, _⟩ := (P.right_fits S h0 hW hV).mp h2
    exact ⟨b, k, h1, hk⟩
  · rintro ⟨b, k, h1, h2⟩
    exact ⟨b, f k, h1, (P.right_fits S h0 hW hV).mpr ⟨k, h2, rfl⟩⟩

include hW in
theorem PartOf.left_pick (P : PartOf (leftOf n0) W V f) (hu : W.Untwinned) {x j j0 : Nat} (hx : x + 1 < W.column n0) (hj : j < j0)
    (hs : W.same B x j = true) : f (V.firstFit (B.take j0) (x, j)) = W.firstFit B (x, j) := by
  obtain ⟨b, _, hb, _⟩ := same_iff.mp hs
  have hs' := hs
  rw [P.left_same S h0 hW hV hx hj] at hs'
  have h1 := firstFit_mem (B := B.take j0) (b := b) (by rw [List.getElem?_take_of_lt hj, hb]) hs'
  exact fits_unique hu ((P.left_fits S h0 hW hV hx).mpr ⟨_, h1, rfl⟩) (firstFit_mem hb hs)

include hW in
theorem PartOf.right_pick (P : PartOf (rightOf n0) W V f) (hu : W.Untwinned) {x j j0 : Nat}
    (hs : W.same B (W.column n0 + x) (j0 + j) = true) : f (V.firstFit (B.drop j0) (x, j)) = W.firstFit B (W.column n0 + x, j0 + j) := by
  obtain ⟨b, _, hb, _⟩ := same_iff.mp hs
  have hs' := hs
  rw [P.right_same S h0 hW hV] at hs'
  have h1 := firstFit_mem (B := B.drop j0) (b := b) (by rw [List.getElem?_drop, hb]) hs'
  exact fits_unique hu ((P.right_fits S h0 hW hV).mpr ⟨_, h1, rfl⟩) (firstFit_mem hb hs)

end

section
variable {W VL VR : Work} {fL fR : Nat → Nat} {n0 i0 j0 : Nat} {B : List Str} (S : Sound W) (h0 : ∀ r ∈ W.rows, n0 ∈ r)
  (hW : ∀ n < W.words.length, W.Used n) (hVL : ∀ n < VL.words.length, VL.Used n) (hVR : ∀ n < VR.words.length, VR.Used n)
  (PL : PartOf (leftOf n0) W VL fL) (PR : PartOf (rightOf n0) W VR fR) (hn0 : W.Used n0) (hu : W.Untwinned) (hB : NoDoubles B)
  (hi0 : W.column n0 = i0 + 1) (hlink : (i0, j0) ∈ (aligned (W.same B) W.width B.length).2) (hpick : W.firstFit B (i0, j0) = n0)
include S h0 hW hVL hVR PL PR hn0 hB hi0 hlink

/-- The best way, cut. -/
theorem ways_cut : (aligned (W.same B) W.width B.length).2 =
    shiftLinks (i0 + 1) (j0 + 1) (aligned (VR.same (B.drop (j0 + 1))) VR.width (B.drop (j0 + 1)).length).2 ++
      (i0, j0) :: (aligned (VL.same (B.take j0)) VL.width (B.take j0).length).2 := by
  have hlt : j0 < B.length := ((aligned_falling (W.same B) W.width B.length).1 _ hlink).2
  have hwR := PR.right_width S h0 (PR.right_sound S h0 hVR) hn0
  have hwL := PL.left_width S h0 (PL.left_sound S h0 hVL) hn0
  have hone : ∀ y : Nat, W.same B i0 y = true → W.same B i0 (y + 1) = false := by
    intro y hy
    cases hy' : W.same B i0 (y + 1) with
    | false => rfl
    | true =>
      exfalso
      obtain ⟨b, n, h1, h2⟩ := same_iff.mp hy
      obtain ⟨b', n', h1', h2'⟩ := same_iff.mp hy'
      have only : ∀ {c : Str} {n : Nat}, n ∈ W.fits i0 c → n = n0 := by
        intro c n hn
        obtain ⟨q1, q2, _⟩ := mem_fits.mp hn
        obtain ⟨r, hr, hnr⟩ := hW n q1
        exact S.same_row hr hnr (h0 r hr) (by omega)
      obtain rfl := only h2
      obtain rfl := only h2'
      have e1 := (mem_fits.mp h2).2.2
      have e2 := (mem_fits.mp h2').2.2
      rw [e1] at e2
      obtain rfl := Option.some.inj e2
      exact hB y b h1 h1'
  have hlenB : B.length = j0 + 1 + (B.drop (j0 + 1)).length := by
    rw [List.length_drop]
    omega
  have hwid : W.width = i0 + 1 + VR.width := by omega
  have hthrough := aligned_through_any hone VR.width (B.drop (j0 + 1)).length (by rw [← hlenB, ← hwid]; exact hlink)
  rw [← hlenB, ← hwid] at hthrough
  have hmem : (i0, j0) ∈ (aligned (W.same B) (i0 + 1) (j0 + 1)).2 := by
    rw [hthrough] at hlink
    rcases List.mem_append.mp hlink with h | h
    · obtain ⟨p, _, he⟩ := List.mem_map.mp h
      have := congrArg Prod.fst he
      simp only at this
      omega
    · exact h
  rw [hthrough]
  simp only
  rw [aligned_at_any hone hmem]
  congr 1
  · congr 2
    apply aligned_local
    intro x _ y _
    rw [← PR.right_same S h0 hW hVR, hi0]
    rfl
  · congr 2
    rw [show VL.width = i0 by omega, List.length_take, Nat.min_eq_left (by omega)]
    apply aligned_local
    intro x hx y hy
    exact PL.left_same S h0 hW hVL (by omega) hy

include hu hpick in
/-- The links, cut. -/
theorem links_cut : W.links B (W.firstFit B) =
    shiftLinks (i0 + 1) (j0 + 1) (VR.links (B.drop (j0 + 1)) (VR.firstFit (B.drop (j0 + 1)))) ++
      (i0, j0) :: VL.links (B.take j0) (VL.firstFit (B.take j0)) := by
  have hlt : j0 < B.length := ((aligned_falling (W.same B) W.width B.length).1 _ hlink).2
  have hcut := ways_cut S h0 hW hVL hVR PL PR hn0 hB hi0 hlink
  have hwL := PL.left_width S h0 (PL.left_sound S h0 hVL) hn0
  unfold Work.links
  have hsame : ∀ p ∈ (aligned (W.same B) W.width B.length).2, W.same B p.1 p.2 = true := fun p hp => aligned_same _ _ _ p hp
  rw [hcut] at hsame ⊢
  set R := (aligned (VR.same (B.drop (j0 + 1))) VR.width (B.drop (j0 + 1)).length).2 with hR
  set L := (aligned (VL.same (B.take j0)) VL.width (B.take j0).length).2 with hL
  -- what is chosen
  have hright : ∀ p ∈ R, W.firstFit B (i0 + 1 + p.1, j0 + 1 + p.2) = fR (VR.firstFit (B.drop (j0 + 1)) p) ∧ VR.Used (VR.firstFit (B.drop (j0 + 1)) p) := by
    intro p hp
    have h1 := hsame (i0 + 1 + p.1, j0 + 1 + p.2) (List.mem_append_left _ (List.mem_map.mpr ⟨p, hp, rfl⟩))
    simp only at h1
    rw [← hi0] at h1 ⊢
    refine ⟨(PR.right_pick S h0 hW hVR hu h1).symm, ?_⟩
    have h2 := aligned_same _ _ _ p hp
    obtain ⟨b, _, hb, _⟩ := same_iff.mp h2
    exact hVR _ (mem_fits.mp (firstFit_mem (x := p.1) (j := p.2) hb h2)).1
  have hleft : ∀ p ∈ L, W.firstFit B p = fL (VL.firstFit (B.take j0) p) ∧ VL.Used (VL.firstFit (B.take j0) p) := by
    intro p hp
    have h1 := hsame p (List.mem_append_right _ (List.mem_cons_of_mem _ hp))
    have hb := (aligned_falling _ _ _).1 p hp
    have hx : p.1 + 1 < W.column n0 := by omega
    have hy : p.2 < j0 := by
      have := hb.2
      rw [List.length_take] at this
      omega
    refine ⟨(PL.left_pick S h0 hW hVL hu hx hy h1).symm, ?_⟩
    have h2 := aligned_same _ _ _ p hp
    obtain ⟨b, _, hb, _⟩ := same_iff.mp h2
    exact hVL _ (mem_fits.mp (firstFit_mem (x := p.1) (j := p.2) hb h2)).1
  rw [firstOf_append, firstOf]
  · congr 1
    · unfold shiftLinks
      rw [firstOf_map]
      congr 1
      apply firstOf_congr
      intro p hp q hq
      rw [(hright p hp).1, (hright q hq).1]
      exact ⟨fun h => PR.inj _ _ (hright p hp).2 (hright q hq).2 h, fun h => by rw [h]⟩
    · congr 1
      rw [List.filter_eq_self.mpr]
      · apply firstOf_congr
        intro p hp q hq
        rw [(hleft p hp).1, (hleft q hq).1]
        exact ⟨fun h => PL.inj _ _ (hleft p hp).2 (hleft q hq).2 h, fun h => by rw [h]⟩
      · intro q hq
        have hq := mem_of_firstOf hq
        have := (PL.left_used S h0 (hleft q hq).2).2
        rw [← (hleft q hq).1] at this
        simp only [ne_eq, decide_eq_true_eq]
        intro he
        rw [he, hpick] at this
        omega
  · intro p hp q hq
    obtain ⟨p', hp', rfl⟩ := List.mem_map.mp hp
    have h1 := (PR.right_used S h0 (hright p' hp').2).2
    rw [← (hright p' hp').1] at h1
    rcases List.mem_cons.mp hq with rfl | hq
    · rw [hpick]
      intro he
      rw [he] at h1
      omega
    · have h2 := (PL.left_used S h0 (hleft q hq).2).2
      rw [← (hleft q hq).1] at h2
      intro he
      rw [he] at h1
      omega

include hu hpick in
/-- The nodes of a further text, cut. -/
theorem nodesFor_cut : W.nodesFor B (W.firstFit B) =
    (VL.nodesFor (B.take j0) (VL.firstFit (B.take j0))).map (Option.map fL) ++
      some n0 :: (VR.nodesFor (B.drop (j0 + 1)) (VR.firstFit (B.drop (j0 + 1)))).map (Option.map fR) := by
  have hlt : j0 < B.length := ((aligned_falling (W.same B) W.width B.length).1 _ hlink).2
  have hcut := links_cut S h0 hW hVL hVR PL PR hn0 hu hB hi0 hlink hpick
  have hwL := PL.left_width S h0 (PL.left_sound S h0 hVL) hn0
  have hsame : ∀ p ∈ W.links B (W.firstFit B), W.same B p.1 p.2 = true := fun p hp => (mem_links hp).2
  rw [hcut] at hsame
  have hbR : ∀ p ∈ VR.links (B.drop (j0 + 1)) (VR.firstFit (B.drop (j0 + 1))), W.firstFit B (i0 + 1 + p.1, j0 + 1 + p.2) =
      fR (VR.firstFit (B.drop (j0 + 1)) p) := by
    intro p hp
    have h1 := hsame (i0 + 1 + p.1, j0 + 1 + p.2) (List.mem_append_left _ (List.mem_map.mpr ⟨p, hp, rfl⟩))
    simp only at h1
    rw [← hi0] at h1 ⊢
    exact (PR.right_pick S h0 hW hVR hu h1).symm
  have hbL : ∀ p ∈ VL.links (B.take j0) (VL.firstFit (B.take j0)), p.2 < j0 ∧ W.firstFit B p = fL (VL.firstFit (B.take j0) p) := by
    intro p hp
    have h1 := hsame p (List.mem_append_right _ (List.mem_cons_of_mem _ hp))
    have hb := (aligned_falling _ _ _).1 p (mem_links hp).1
    have hy : p.2 < j0 := by
      have := hb.2
      rw [List.length_take] at this
      omega
    exact ⟨hy, (PL.left_pick S h0 hW hVL hu (by omega) hy h1).symm⟩
  unfold Work.nodesFor
  rw [hcut]
  generalize VR.links (B.drop (j0 + 1)) (VR.firstFit (B.drop (j0 + 1))) = R at hbR ⊢
  generalize VL.links (B.take j0) (VL.firstFit (B.take j0)) = L at hbL ⊢
  have hlen : B.length = j0 + ((B.drop (j0 + 1)).length + 1) := by
    rw [List.length_drop]
    omega
  rw [hlen, List.range_add, List.map_append, List.length_take, Nat.min_eq_left (by omega), List.range_succ_eq_map, List.map_cons, List.map_cons,
    List.map_map, List.map_map, List.map_map, List.map_map]
  congr 1
  · apply List.map_congr_left
    intro j hj
    rw [List.mem_range] at hj
    simp only [Function.comp]
    rw [List.find?_append, List.find?_eq_none.mpr, Option.none_or, List.find?_cons_of_neg (by simp; omega)]
    · cases hf : L.find? (fun p => decide (p.2 = j)) with
      | none => rfl
      | some p =>
        simp only [Option.map_some]
        rw [(hbL p (List.mem_of_find?_eq_some hf)).2]
    · intro p hp
      obtain ⟨p', _, rfl⟩ := List.mem_map.mp hp
      simp only [decide_eq_true_eq]
      omega
  · congr 1
    · rw [List.find?_append, List.find?_eq_none.mpr, Option.none_or, List.find?_cons_of_pos (by simp)]
      · simp only [Option.map_some, hpick]
      · intro p hp
        obtain ⟨p', _, rfl⟩ := List.mem_map.mp hp
        simp only [decide_eq_true_eq]
        omega
    · apply List.map_congr_left
      intro y hy
      simp only [Function.comp]
      have hnone : List.find? (fun p : Nat × Nat => decide (p.2 = j0 + y.succ)) ((i0, j0) :: L) = none := by
        rw [List.find?_eq_none]
        intro p hp
        simp only [decide_eq_true_eq]
        rcases List.mem_cons.mp hp with rfl | hp
        · simp only; omega
        · have := (hbL p hp).1
          omega
      rw [List.find?_append, hnone, Option.or_none]
      unfold shiftLinks
      rw [List.find?_map]
      have : ((fun p : Nat × Nat => decide (p.2 = j0 + y.succ)) ∘ fun p : Nat × Nat => (i0 + 1 + p.1, j0 + 1 + p.2)) = fun p => decide (p.2 = y) := by
        funext p
        simp only [Function.comp, decide_eq_decide]
        omega
      rw [this]
      cases hf : R.find? (fun p => decide (p.2 = y)) with
      | none => rfl
      | some p =>
        simp only [Option.map_some]
        rw [hbR p (List.mem_of_find?_eq_some hf)]

end

end CollateX
