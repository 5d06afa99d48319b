import Verif.Proofs.DivideSegments
import Verif.Props.LeaveOut
/-
C111: a passage that all witnesses share is aligned and divides the collation.
-/

namespace CollateX
open Spec

section
variable {ws : List Witness} {X : List Str} {parts : List (List Str × List Str)}

/-- The work of the first texts is sound. -/
theorem workOf_take_sound (hv : Valid ws) (hu : ∀ n < ws.length, (workOf ((ws.map strings).take n)).Untwinned) {k : Nat} (hk : k < ws.length) :
    Sound (workOf ((ws.map strings).take (k + 1))) ∧ ∀ n < (workOf ((ws.map strings).take (k + 1))).words.length,
      (workOf ((ws.map strings).take (k + 1))).Used n := by
  have hv' := hv.take (n := k + 1) (by omega)
  have := workOf_sound hv' hv'.ne (by
    intro n hn
    rw [List.length_take] at hn
    rw [List.map_take, List.take_take, show min n (k + 1) = n by omega]
    exact hu n (by omega))
  rwa [List.map_take] at this

/-- The columns of the passage in the short program. -/
theorem shown_passage (hv : Valid ws) (hu : ∀ n < ws.length, (workOf ((ws.map strings).take n)).Untwinned)
    (hws : ws.map strings = parts.map (around X)) (hs : SharedPassage X parts) (hl : LongEnough X parts) :
    ∃ a, (∀ d < X.length, (workOf (ws.map strings)).variantAt (a + d + 1) = false) ∧
      (∀ r ∈ (workOf (ws.map strings)).shown, (r.drop a).take X.length = agreedCells X) ∧
      (workOf (ws.map strings)).shown.map (fun r => wordsOfCells (r.take a)) = parts.map Prod.fst ∧
      (workOf (ws.map strings)).shown.map (fun r => wordsOfCells (r.drop (a + X.length))) = parts.map Prod.snd := by
  have hlen : parts.length = ws.length := by simpa using (congrArg List.length hws).symm
  have hne : parts ≠ [] := by
    intro h
    rw [h] at hlen
    exact hv.ne (List.length_eq_zero_iff.mp hlen.symm)
  obtain ⟨S, hW⟩ := workOf_sound hv hv.ne hu
  have hwords := wordsOfCells_shown S
  obtain ⟨n0, F⟩ := workOf_passage parts hne (fun k hk => by rw [← hws]; exact (workOf_take_sound hv hu (by omega)).1)
    (fun k hk => by rw [← hws]; exact (workOf_take_sound hv hu (by omega)).2) hs hl
  rw [hws] at S hW hwords ⊢
  generalize workOf (parts.map (around X)) = W at S hW hwords F
  have hpos : 0 < X.length := List.length_pos_iff.mpr hs.ne
  have hu0 := passage_used hne F (d := 0) hpos
  rw [Nat.add_zero] at hu0
  have hc0 := (S.column_le hu0).1
  obtain ⟨_, hw, _⟩ := passage_widths S hne hs.ne F
  have hat : ∀ d < X.length, ∀ r ∈ W.rows, W.nodeAt r (W.column n0 - 1 + d + 1) = some (n0 + d) := by
    intro d hd r hr
    obtain ⟨p, _, hp⟩ := row_part F hr
    refine (S.nodeAt_iff hr).mpr ⟨hp.mem hd, ?_⟩
    rw [passage_column S hne F d hd]
    omega
  have hvar : ∀ d < X.length, W.variantAt (W.column n0 - 1 + d + 1) = false := fun d hd =>
    variantAt_false.mpr ⟨n0 + d, S.bound _ (passage_used hne F hd), hat d hd⟩
  have hslice : ∀ r ∈ W.shown, (r.drop (W.column n0 - 1)).take X.length = agreedCells X := by
    intro r hr
    unfold Work.shown at hr
    obtain ⟨r0, hr0, rfl⟩ := List.mem_map.mp hr
    obtain ⟨p, _, hp⟩ := row_part F hr0
    apply List.ext_getElem?
    intro d
    rcases Nat.lt_or_ge d X.length with hd | hd
    · rw [List.getElem?_take_of_lt hd, List.getElem?_drop, List.getElem?_map, List.getElem?_range (by omega), Option.map_some, hvar d hd,
        hat d hd r0 hr0]
      unfold agreedCells
      rw [List.getElem?_map, Option.bind_some, (hp.word (hp.nodes d hd)).1, passage_get hd, List.getElem?_eq_getElem hd]
      rfl
    · rw [List.getElem?_eq_none (by rw [List.length_take]; omega), List.getElem?_eq_none (by unfold agreedCells; simpa using hd)]
  have hsplit : ∀ r ∈ W.shown, wordsOfCells r = wordsOfCells (r.take (W.column n0 - 1)) ++ X ++ wordsOfCells (r.drop (W.column n0 - 1 + X.length)) := by
    intro r hr
    conv => lhs; rw [← List.take_append_drop (W.column n0 - 1) r, ← List.take_append_drop X.length (r.drop (W.column n0 - 1)), hslice r hr, List.drop_drop]
    have e : ∀ l m : List (Bool × Option (List Str)), wordsOfCells (l ++ m) = wordsOfCells l ++ wordsOfCells m := fun l m => List.flatMap_append
    rw [e, e, wordsOfCells_agreed, List.append_assoc]
  have hboth : ∀ (i : Nat) (r : List (Bool × Option (List Str))) (p : List Str × List Str), W.shown[i]? = some r → parts[i]? = some p → wordsOfCells (r.take (W.column n0 - 1)) = p.1 ∧
      wordsOfCells (r.drop (W.column n0 - 1 + X.length)) = p.2 := by
    intro i r p hr hp
    have h1 := congrArg (fun l => l[i]?) hwords
    simp only [List.getElem?_map, hr, hp, Option.map_some, Option.some.injEq] at h1
    rw [hsplit r (List.mem_of_getElem? hr)] at h1
    unfold around at h1
    have h2 : (p.1 ++ X ++ p.2)[(wordsOfCells (r.take (W.column n0 - 1))).length + 0]? = X[0]? := by rw [← h1, passage_get hpos]
    rw [List.getElem?_eq_getElem hpos] at h2
    have h3 := passage_place hs.distinct (hs.elsewhere p (List.mem_of_getElem? hp)) (List.getElem?_eq_getElem hpos) h2
    rw [List.append_assoc, List.append_assoc] at h1
    obtain ⟨h4, h5⟩ := List.append_inj h1 (by omega)
    exact ⟨h4, List.append_cancel_left h5⟩
  have hsl : W.shown.length = parts.length := by simpa using congrArg List.length hwords
  refine ⟨W.column n0 - 1, hvar, hslice, ?_, ?_⟩
  · refine List.ext_getElem (by simpa using hsl) (fun i h1 h2 => ?_)
    rw [List.length_map] at h1 h2
    simpa using (hboth i _ _ (List.getElem?_eq_getElem h1) (List.getElem?_eq_getElem h2)).1
  · refine List.ext_getElem (by simpa using hsl) (fun i h1 h2 => ?_)
    rw [List.length_map] at h1 h2
    simpa using (hboth i _ _ (List.getElem?_eq_getElem h1) (List.getElem?_eq_getElem h2)).2

end

section
variable {ws : List Witness} {X : List Str} {parts : List (List Str × List Str)}

/-- The column of the passage in the short program, with segmentation. -/
theorem segmented_passage (hv : Valid ws) (hu : ∀ n < ws.length, (workOf ((ws.map strings).take n)).Untwinned)
    (hws : ws.map strings = parts.map (around X)) (hs : SharedPassage X parts) (hl : LongEnough X parts) :
    ∃ x H1 H2, (workOf (ws.map strings)).heads.variantAt (x + 1) = false ∧
      (∀ r ∈ (workOf (ws.map strings)).shownSegmented, r[x]? = some (false, some (H1 ++ X ++ H2))) ∧
      (workOf (ws.map strings)).shownSegmented.map (fun r => wordsOfCells (r.take x) ++ H1) = parts.map Prod.fst ∧
      (workOf (ws.map strings)).shownSegmented.map (fun r => H2 ++ wordsOfCells (r.drop (x + 1))) = parts.map Prod.snd := by
  have hlen : parts.length = ws.length := by simpa using (congrArg List.length hws).symm
  have hne : parts ≠ [] := by
    intro h
    rw [h] at hlen
    exact hv.ne (List.length_eq_zero_iff.mp hlen.symm)
  obtain ⟨S, hW⟩ := workOf_sound hv hv.ne hu
  have SH := S.heads hW
  have hwords := wordsOfCells_segmented SH
  obtain ⟨n0, F⟩ := workOf_passage parts hne (fun k hk => by rw [← hws]; exact (workOf_take_sound hv hu (by omega)).1)
    (fun k hk => by rw [← hws]; exact (workOf_take_sound hv hu (by omega)).2) hs hl
  rw [hws] at S SH hwords ⊢
  generalize workOf (parts.map (around X)) = W at S SH hwords F
  have hpos : 0 < X.length := List.length_pos_iff.mpr hs.ne
  obtain ⟨x, H1, H2, hvar, hcell⟩ := passage_segmented S hne hs.ne F SH
  have hsplit : ∀ r ∈ W.shownSegmented, wordsOfCells r = (wordsOfCells (r.take x) ++ H1) ++ X ++ (H2 ++ wordsOfCells (r.drop (x + 1))) := by
    intro r hr
    have hx := hcell r hr
    obtain ⟨hlt, hg⟩ := List.getElem?_eq_some_iff.mp hx
    conv => lhs; rw [← List.take_append_drop x r, List.drop_eq_getElem_cons hlt, hg]
    have e : ∀ l m : List (Bool × Option (List Str)), wordsOfCells (l ++ m) = wordsOfCells l ++ wordsOfCells m := fun l m => List.flatMap_append
    rw [e]
    simp [wordsOfCells, List.append_assoc]
  have hboth : ∀ (i : Nat) (r : List (Bool × Option (List Str))) (p : List Str × List Str), W.shownSegmented[i]? = some r → parts[i]? = some p →
      wordsOfCells (r.take x) ++ H1 = p.1 ∧ H2 ++ wordsOfCells (r.drop (x + 1)) = p.2 := by
    intro i r p hr hp
    have h1 := congrArg (fun l => l[i]?) hwords
    simp only [List.getElem?_map, hr, hp, Option.map_some, Option.some.injEq] at h1
    rw [hsplit r (List.mem_of_getElem? hr)] at h1
    unfold around at h1
    have h2 : (p.1 ++ X ++ p.2)[(wordsOfCells (r.take x) ++ H1).length + 0]? = X[0]? := by rw [← h1, passage_get hpos]
    rw [List.getElem?_eq_getElem hpos] at h2
    have h3 := passage_place hs.distinct (hs.elsewhere p (List.mem_of_getElem? hp)) (List.getElem?_eq_getElem hpos) h2
    rw [List.append_assoc, List.append_assoc p.1] at h1
    obtain ⟨h4, h5⟩ := List.append_inj h1 (by omega)
    exact ⟨h4, List.append_cancel_left h5⟩
  have hsl : W.shownSegmented.length = parts.length := by simpa using congrArg List.length hwords
  refine ⟨x, H1, H2, hvar, hcell, ?_, ?_⟩
  · refine List.ext_getElem (by simpa using hsl) (fun i h1 h2 => ?_)
    rw [List.length_map] at h1 h2
    simpa using (hboth i _ _ (List.getElem?_eq_getElem h1) (List.getElem?_eq_getElem h2)).1
  · refine List.ext_getElem (by simpa using hsl) (fun i h1 h2 => ?_)
    rw [List.length_map] at h1 h2
    simpa using (hboth i _ _ (List.getElem?_eq_getElem h1) (List.getElem?_eq_getElem h2)).2

end

/-- C111, the passage is aligned, without segmentation, if the short program of C103 finds nothing to choose: the table has one column for each word of
the passage, one after the other, none of them marked; in each row the words of the witness before the passage stand in the columns before them, and
the words after it in the columns after them. The full claim has no condition on the length of the passage and none on the work. -/
theorem C111_aligned_partial (env : Env) (hts : TopoSpec env.topo) (ws : List Witness) (hv : Valid ws) (hs : ∀ w ∈ ws, w.sigil ≠ [])
    (hu : ∀ n < ws.length, (workOf ((ws.map strings).take n)).Untwinned) (X : List Str) (parts : List (List Str × List Str))
    (hws : ws.map strings = parts.map (fun p => p.1 ++ X ++ p.2)) (hsh : SharedPassage X parts) (hl : LongEnough X parts)
    (o : Opts) (ho : ExactMatching o) (hf : o.pfilter = none) (hseg : o.segmentation = false) :
    ∃ t a, collateTable env ws o = .ok t ∧ (∀ r ∈ markedStrings t, (r.drop a).take X.length = agreedCells X) ∧
      (markedStrings t).map (fun r => wordsOfCells (r.take a)) = parts.map Prod.fst ∧
      (markedStrings t).map (fun r => wordsOfCells (r.drop (a + X.length))) = parts.map Prod.snd := by
  obtain ⟨t, h1, h2⟩ := C103_computed env hts ws hv hs o ho hf hseg hu
  obtain ⟨a, _, h3⟩ := shown_passage hv hu hws hsh hl
  exact ⟨t, a, h1, by rw [h2]; exact h3⟩

/-- C111, the passage divides the collation, without segmentation, all witnesses but the first without equal neighbours, if the short program of C103
finds nothing to choose: the table is the table of what stands before the passage, then one unmarked column for each word of the passage, then the
table of what stands after it. The full claim has no condition on the length of the passage, on the work and on equal neighbours. -/
theorem C111_divides_partial (env : Env) (hts : TopoSpec env.topo) (ws us vs : List Witness) (hv : Valid ws) (hs : ∀ w ∈ ws, w.sigil ≠ [])
    (hvu : Valid us) (hsu : ∀ w ∈ us, w.sigil ≠ []) (hvv : Valid vs) (hsv : ∀ w ∈ vs, w.sigil ≠ []) (hrep : ∀ w ∈ ws.tail, NoRepeats w)
    (hu : ∀ n < ws.length, (workOf ((ws.map strings).take n)).Untwinned) (X : List Str)
    (hlen : us.length = vs.length) (hws : ws.map strings = List.zipWith (fun u v => strings u ++ X ++ strings v) us vs)
    (hsh : SharedPassage X ((us.map strings).zip (vs.map strings))) (hl : LongEnough X ((us.map strings).zip (vs.map strings)))
    (o : Opts) (ho : ExactMatching o) (hf : o.pfilter = none) (hseg : o.segmentation = false) :
    ∃ t tL tR, collateTable env ws o = .ok t ∧ collateTable env us o = .ok tL ∧ collateTable env vs o = .ok tR ∧
      markedStrings t = List.zipWith (fun l r => l ++ agreedCells X ++ r) (markedStrings tL) (markedStrings tR) := by
  have hws' : ws.map strings = ((us.map strings).zip (vs.map strings)).map (around X) := by
    rw [hws, List.zip_map, List.map_map]
    exact (List.map_zip_eq_zipWith (f := fun p : Witness × Witness => strings p.1 ++ X ++ strings p.2)).symm
  have hz1 : ((us.map strings).zip (vs.map strings)).map Prod.fst = us.map strings := List.map_fst_zip (by simp [hlen])
  have hz2 : ((us.map strings).zip (vs.map strings)).map Prod.snd = vs.map strings := List.map_snd_zip (by simp [hlen])
  have hwl : us.length = ws.length := by
    have := congrArg List.length hws
    rw [List.length_map, List.length_zipWith] at this
    omega
  obtain ⟨t, h1, h2⟩ := C103_computed env hts ws hv hs o ho hf hseg hu
  obtain ⟨a, hvar, hsl, hL, hR⟩ := shown_passage hv hu hws' hsh hl
  have hpos : 0 < X.length := List.length_pos_iff.mpr hsh.ne
  obtain ⟨⟨tsL, l1, l2, l3⟩, _⟩ := shown_cut hv hv.ne hu hrep (k := a) (hvar 0 hpos)
  obtain ⟨_, ⟨tsR, r1, r2, r3⟩⟩ := shown_cut hv hv.ne hu hrep (k := a + (X.length - 1)) (hvar (X.length - 1) (by omega))
  rw [show a + (X.length - 1) + 1 = a + X.length by omega] at r1 r2
  rw [hz1, l2] at hL
  rw [hz2, r2] at hR
  obtain ⟨tL, k1, k2⟩ := C103_computed env hts us hvu hsu o ho hf hseg (by rw [← hL, hwl]; exact l3)
  obtain ⟨tR, m1, m2⟩ := C103_computed env hts vs hvv hsv o ho hf hseg (by rw [← hR, ← hlen, hwl]; exact r3)
  refine ⟨t, tL, tR, h1, k1, m1, ?_⟩
  rw [h2, k2, m2, ← hL, ← hR, l1, r1, List.zipWith_map_left, List.zipWith_map_right, List.zipWith_self]
  conv => lhs; rw [← List.map_id (workOf (ws.map strings)).shown]
  apply List.map_congr_left
  intro r hr
  rw [← hsl r hr, ← List.drop_drop, List.append_assoc, List.take_append_drop, List.take_append_drop]
  rfl

/-- C111, with segmentation: there is one unmarked column in which all rows have the same words, with the passage among them; what the witnesses have
before the passage stands before this column or at the beginning of it, and what they have after the passage stands after it or at the end of it. -/
theorem C111_segmented_partial (env : Env) (hts : TopoSpec env.topo) (ws : List Witness) (hv : Valid ws) (hs : ∀ w ∈ ws, w.sigil ≠ [])
    (hu : ∀ n < ws.length, (workOf ((ws.map strings).take n)).Untwinned) (X : List Str) (parts : List (List Str × List Str))
    (hws : ws.map strings = parts.map (fun p => p.1 ++ X ++ p.2)) (hsh : SharedPassage X parts) (hl : LongEnough X parts)
    (o : Opts) (ho : ExactMatching o) (hf : o.pfilter = none) (hseg : o.segmentation = true) :
    ∃ t x H1 H2, collateTable env ws o = .ok t ∧ (∀ r ∈ markedStrings t, r[x]? = some (false, some (H1 ++ X ++ H2))) ∧
      (markedStrings t).map (fun r => wordsOfCells (r.take x) ++ H1) = parts.map Prod.fst ∧
      (markedStrings t).map (fun r => H2 ++ wordsOfCells (r.drop (x + 1))) = parts.map Prod.snd := by
  obtain ⟨t, h1, h2⟩ := C104_computed env hts ws hv hs o ho hf hseg hu
  obtain ⟨x, H1, H2, _, h3⟩ := segmented_passage hv hu hws hsh hl
  exact ⟨t, x, H1, H2, h1, by rw [h2]; exact h3⟩

/-- C111, the passage divides the collation, with segmentation, all witnesses but the first without equal neighbours, if the short program of C103
finds nothing to choose and the passage cannot be extended: what stands before it does not end with the same word in all witnesses, and what stands
after it does not begin with the same word in all. The table is the table of what stands before the passage, then one unmarked column with the
passage, then the table of what stands after it. -/
theorem C111_segmented_divides_partial (env : Env) (hts : TopoSpec env.topo) (ws us vs : List Witness) (hv : Valid ws) (hs : ∀ w ∈ ws, w.sigil ≠ [])
    (hvu : Valid us) (hsu : ∀ w ∈ us, w.sigil ≠ []) (hvv : Valid vs) (hsv : ∀ w ∈ vs, w.sigil ≠ []) (hrep : ∀ w ∈ ws.tail, NoRepeats w)
    (hu : ∀ n < ws.length, (workOf ((ws.map strings).take n)).Untwinned) (X : List Str)
    (hlen : us.length = vs.length) (hws : ws.map strings = List.zipWith (fun u v => strings u ++ X ++ strings v) us vs)
    (hsh : SharedPassage X ((us.map strings).zip (vs.map strings))) (hl : LongEnough X ((us.map strings).zip (vs.map strings)))
    (hlast : ∀ a, ∃ u ∈ us, (strings u).getLast? ≠ some a) (hfirst : ∀ a, ∃ v ∈ vs, (strings v).head? ≠ some a)
    (o : Opts) (ho : ExactMatching o) (hf : o.pfilter = none) (hseg : o.segmentation = true) :
    ∃ t tL tR, collateTable env ws o = .ok t ∧ collateTable env us o = .ok tL ∧ collateTable env vs o = .ok tR ∧
      markedStrings t = List.zipWith (fun l r => l ++ [(false, some X)] ++ r) (markedStrings tL) (markedStrings tR) := by
  have hws' : ws.map strings = ((us.map strings).zip (vs.map strings)).map (around X) := by
    rw [hws, List.zip_map, List.map_map]
    exact (List.map_zip_eq_zipWith (f := fun p : Witness × Witness => strings p.1 ++ X ++ strings p.2)).symm
  have hz1 : ((us.map strings).zip (vs.map strings)).map Prod.fst = us.map strings := List.map_fst_zip (by simp [hlen])
  have hz2 : ((us.map strings).zip (vs.map strings)).map Prod.snd = vs.map strings := List.map_snd_zip (by simp [hlen])
  have hwl : us.length = ws.length := by
    have := congrArg List.length hws
    rw [List.length_map, List.length_zipWith] at this
    omega
  obtain ⟨t, h1, h2⟩ := C104_computed env hts ws hv hs o ho hf hseg hu
  obtain ⟨x, H1, H2, hvar, hsl, hL, hR⟩ := segmented_passage hv hu hws' hsh hl
  rw [hz1] at hL
  rw [hz2] at hR
  have hH1 : H1 = [] := by
    rcases List.eq_nil_or_concat H1 with h | ⟨l, a, h⟩
    · exact h
    · exfalso
      obtain ⟨u, hum, hn⟩ := hlast a
      have := List.mem_map_of_mem (f := strings) hum
      rw [← hL] at this
      obtain ⟨r, _, he⟩ := List.mem_map.mp this
      rw [← he, h, List.concat_eq_append, ← List.append_assoc, List.getLast?_concat] at hn
      exact hn rfl
  have hH2 : H2 = [] := by
    cases h : H2 with
    | nil => rfl
    | cons a l =>
      exfalso
      obtain ⟨v, hvm, hn⟩ := hfirst a
      have := List.mem_map_of_mem (f := strings) hvm
      rw [← hR] at this
      obtain ⟨r, _, he⟩ := List.mem_map.mp this
      rw [← he, h] at hn
      exact hn rfl
  subst hH1 hH2
  simp only [List.append_nil, List.nil_append] at hL hR hsl
  obtain ⟨⟨tsL, l1, l2, l3⟩, ⟨tsR, r1, r2, r3⟩⟩ := segmented_cut hv hv.ne hu hrep hvar
  rw [l2] at hL
  rw [r2] at hR
  obtain ⟨tL, k1, k2⟩ := C104_computed env hts us hvu hsu o ho hf hseg (by rw [← hL, hwl]; exact l3)
  obtain ⟨tR, m1, m2⟩ := C104_computed env hts vs hvv hsv o ho hf hseg (by rw [← hR, ← hlen, hwl]; exact r3)
  refine ⟨t, tL, tR, h1, k1, m1, ?_⟩
  rw [h2, k2, m2, ← hL, ← hR, l1, r1, List.zipWith_map_left, List.zipWith_map_right, List.zipWith_self]
  conv => lhs; rw [← List.map_id (workOf (ws.map strings)).shownSegmented]
  apply List.map_congr_left
  intro r hr
  obtain ⟨hlt, hg⟩ := List.getElem?_eq_some_iff.mp (hsl r hr)
  rw [← hg, List.append_assoc, List.singleton_append, ← List.drop_eq_getElem_cons hlt, List.take_append_drop]
  rfl

/-- C111 for at most three witnesses. -/
theorem C111_three_partial (env : Env) (hts : TopoSpec env.topo) (ws us vs : List Witness) (hv : Valid ws) (hs : ∀ w ∈ ws, w.sigil ≠ [])
    (hvu : Valid us) (hsu : ∀ w ∈ us, w.sigil ≠ []) (hvv : Valid vs) (hsv : ∀ w ∈ vs, w.sigil ≠ []) (hrep : ∀ w ∈ ws.tail, NoRepeats w)
    (h3 : ws.length ≤ 3) (X : List Str)
    (hlen : us.length = vs.length) (hws : ws.map strings = List.zipWith (fun u v => strings u ++ X ++ strings v) us vs)
    (hsh : SharedPassage X ((us.map strings).zip (vs.map strings))) (hl : LongEnough X ((us.map strings).zip (vs.map strings)))
    (o : Opts) (ho : ExactMatching o) (hf : o.pfilter = none) (hseg : o.segmentation = false) :
    ∃ t tL tR, collateTable env ws o = .ok t ∧ collateTable env us o = .ok tL ∧ collateTable env vs o = .ok tR ∧
      markedStrings t = List.zipWith (fun l r => l ++ agreedCells X ++ r) (markedStrings tL) (markedStrings tR) :=
  C111_divides_partial env hts ws us vs hv hs hvu hsu hvv hsv hrep (untwinned_tail hv hs h3 hrep) X hlen hws hsh hl o ho hf hseg

/-- C111 for at most three witnesses, with segmentation. -/
theorem C111_three_segmented_partial (env : Env) (hts : TopoSpec env.topo) (ws us vs : List Witness) (hv : Valid ws) (hs : ∀ w ∈ ws, w.sigil ≠ [])
    (hvu : Valid us) (hsu : ∀ w ∈ us, w.sigil ≠ []) (hvv : Valid vs) (hsv : ∀ w ∈ vs, w.sigil ≠ []) (hrep : ∀ w ∈ ws.tail, NoRepeats w)
    (h3 : ws.length ≤ 3) (X : List Str)
    (hlen : us.length = vs.length) (hws : ws.map strings = List.zipWith (fun u v => strings u ++ X ++ strings v) us vs)
    (hsh : SharedPassage X ((us.map strings).zip (vs.map strings))) (hl : LongEnough X ((us.map strings).zip (vs.map strings)))
    (hlast : ∀ a, ∃ u ∈ us, (strings u).getLast? ≠ some a) (hfirst : ∀ a, ∃ v ∈ vs, (strings v).head? ≠ some a)
    (o : Opts) (ho : ExactMatching o) (hf : o.pfilter = none) (hseg : o.segmentation = true) :
    ∃ t tL tR, collateTable env ws o = .ok t ∧ collateTable env us o = .ok tL ∧ collateTable env vs o = .ok tR ∧
      markedStrings t = List.zipWith (fun l r => l ++ [(false, some X)] ++ r) (markedStrings tL) (markedStrings tR) :=
  C111_segmented_divides_partial env hts ws us vs hv hs hvu hsu hvv hsv hrep (untwinned_tail hv hs h3 hrep) X hlen hws hsh hl hlast hfirst o ho hf hseg

/-- A passage is long enough if each witness after the first has fewer than twice as many words before it and after it. -/
theorem C111_long_enough (X : List Str) (p0 : List Str × List Str) (parts : List (List Str × List Str))
    (h : ∀ p ∈ parts, p.1.length < 2 * X.length ∧ p.2.length < 2 * X.length) : LongEnough X (p0 :: parts) := by
  intro e q he hp
  obtain ⟨e0, e, rfl⟩ := List.exists_cons_of_ne_nil he
  obtain ⟨s, hs⟩ := hp
  have hq : q ∈ parts := by
    rw [List.cons_append, List.cons_append, List.cons.injEq] at hs
    rw [← hs.2]
    simp
  have := h q hq
  omega

/-- Or if all witnesses together have fewer than twice as many words before it, and after it. -/
theorem C111_long_enough_sums (X : List Str) (parts : List (List Str × List Str)) (h1 : (parts.map (fun p => p.1.length)).sum < 2 * X.length)
    (h2 : (parts.map (fun p => p.2.length)).sum < 2 * X.length) : LongEnough X parts := by
  rintro e q he ⟨s, rfl⟩
  simp only [List.map_append, List.sum_append] at h1 h2
  omega

/-! ### A short passage, and a case -/

/-- Three witnesses with `x y` between other words. -/
def passageWitnesses : List Witness := [wordsWitness "A" ["1", "2", "x", "y", "a"], wordsWitness "B" ["2", "c", "x", "y", "a", "b"],
  wordsWitness "C" ["1", "x", "y", "b"]]

def passageBefore : List Witness := [wordsWitness "A" ["1", "2"], wordsWitness "B" ["2", "c"], wordsWitness "C" ["1"]]

def passageAfter : List Witness := [wordsWitness "A" ["a"], wordsWitness "B" ["a", "b"], wordsWitness "C" ["b"]]

/-- The only word that three texts have in common is not aligned: it has half the length of what stands before it in the second and after it in the
third. -/
theorem C111_short : Valid [wordsWitness "A" ["a", "x"], wordsWitness "B" ["a", "b", "x"], wordsWitness "C" ["x", "c", "d"]] ∧
    SharedPassage [S "x"] [([S "a"], []), ([S "a", S "b"], []), ([], [S "c", S "d"])] ∧
    (collateTable exampleEnv [wordsWitness "A" ["a", "x"], wordsWitness "B" ["a", "b", "x"], wordsWitness "C" ["x", "c", "d"]]
      { segmentation := false }).map tableSummary =
      .ok ⟨[true, true, true], [S "A", S "B", S "C"], [[some [S "a"], none, some [S "x"]], [some [S "a"], some [S "b"], some [S "x"]],
        [some [S "x"], some [S "c"], some [S "d"]]]⟩ :=
  ⟨valid_of_check (by decide) (by decide) (by decide) (by decide), ⟨by decide, by decide, by decide, by decide⟩, by decide +kernel⟩

/-- The hypotheses of C111 for the three witnesses with `x y`, and the table. -/
example : TopoSpec exampleEnv.topo ∧ Valid passageWitnesses ∧ Valid passageBefore ∧ Valid passageAfter ∧ (∀ w ∈ passageWitnesses.tail, NoRepeats w) ∧
    passageWitnesses.length ≤ 3 ∧
    passageWitnesses.map strings = List.zipWith (fun u v => strings u ++ [S "x", S "y"] ++ strings v) passageBefore passageAfter ∧
    SharedPassage [S "x", S "y"] ((passageBefore.map strings).zip (passageAfter.map strings)) ∧
    LongEnough [S "x", S "y"] ((passageBefore.map strings).zip (passageAfter.map strings)) ∧
    (∀ a, ∃ u ∈ passageBefore, (strings u).getLast? ≠ some a) ∧ (∀ a, ∃ v ∈ passageAfter, (strings v).head? ≠ some a) ∧
    ∃ t, collateTable exampleEnv passageWitnesses { segmentation := true } = .ok t ∧ markedStrings t =
      [[(true, some [S "1"]), (true, some [S "2"]), (true, none), (false, some [S "x", S "y"]), (true, some [S "a"]), (true, none)],
       [(true, none), (true, some [S "2"]), (true, some [S "c"]), (false, some [S "x", S "y"]), (true, some [S "a"]), (true, some [S "b"])],
       [(true, some [S "1"]), (true, none), (true, none), (false, some [S "x", S "y"]), (true, none), (true, some [S "b"])]] := by
  refine ⟨kahn_spec, valid_of_check (by decide) (by decide) (by decide) (by decide), valid_of_check (by decide) (by decide) (by decide) (by decide),
    valid_of_check (by decide) (by decide) (by decide) (by decide), ?_, by decide, by decide, ⟨by decide, by decide, by decide, by decide⟩,
    C111_long_enough _ _ _ (by decide), ?_, ?_, ?_⟩
  · intro w hw
    rcases List.mem_cons.mp hw with rfl | hw
    · exact noRepeats_of_check (by decide)
    · obtain rfl := List.mem_singleton.mp hw
      exact noRepeats_of_check (by decide)
  · intro a
    by_cases h : a = S "2"
    · exact ⟨wordsWitness "B" ["2", "c"], by decide, by subst h; decide⟩
    · refine ⟨wordsWitness "A" ["1", "2"], by decide, ?_⟩
      intro he
      have e : (strings (wordsWitness "A" ["1", "2"])).getLast? = some (S "2") := by decide
      exact h (Option.some.inj (e.symm.trans he)).symm
  · intro a
    by_cases h : a = S "a"
    · exact ⟨wordsWitness "C" ["b"], by decide, by subst h; decide⟩
    · refine ⟨wordsWitness "A" ["a"], by decide, ?_⟩
      intro he
      have e : (strings (wordsWitness "A" ["a"])).head? = some (S "a") := by decide
      exact h (Option.some.inj (e.symm.trans he)).symm
  · obtain ⟨t, h1, h2⟩ := C104_computed exampleEnv kahn_spec passageWitnesses (valid_of_check (by decide) (by decide) (by decide) (by decide)) (by decide)
      { segmentation := true } ⟨rfl, rfl, rfl⟩ rfl rfl (by decide +kernel)
    exact ⟨t, h1, h2.trans (by decide +kernel)⟩

end CollateX
