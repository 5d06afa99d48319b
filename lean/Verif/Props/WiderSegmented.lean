import Verif.Proofs.Finer
import Verif.Props.CutSegmented
import Verif.Props.Wider
/-
C115 with segmentation.
-/

namespace CollateX.Spec
open CollateX

/-- For each word of a row its column. -/
def wordPlaces (r : Row) : List Nat := (List.range r.cells.length).flatMap (fun j => ((cellAt r j).getD []).map (fun _ => j))

end CollateX.Spec

namespace CollateX
open Spec

/-- The short program is sound whenever it tracks a graph. -/
theorem Tracks.sound_of_ginv {W : Work} {g : VGraph} {ps : List WPath} (T : Tracks W g ps) (hg : GInv g ps) :
    Sound W ∧ ∀ n < W.words.length, W.Used n := by
  have N := T.nodes
  have hused : ∀ n, W.Used n → n + 2 ∈ g.vertices := by
    rintro n ⟨r, hr', hn⟩
    obtain ⟨p, hp, he⟩ := N.path_of hr'
    have h1 : n + 2 ∈ p.inner := by rw [he]; exact List.mem_map.mpr ⟨n, hn, rfl⟩
    obtain ⟨q, hq, hqe⟩ := List.mem_map.mp h1
    have h2 := (hg.segs_in p hp q hq).1
    rwa [hqe] at h2
  have hbound : ∀ n, W.Used n → n < W.words.length := by
    intro n hn
    have := N.bound _ (hused n hn)
    omega
  have hcov : ∀ n < W.words.length, W.Used n := by
    intro n hn
    obtain ⟨hv, h0, h1⟩ := T.inner hn
    obtain ⟨p, hp, hm⟩ := hg.cover _ hv h0 h1
    obtain ⟨r, hr', he⟩ := N.row_of hp
    rw [he] at hm
    obtain ⟨k, hk, hkn⟩ := List.mem_map.mp hm
    obtain rfl : k = n := by omega
    exact ⟨r, hr', hk⟩
  obtain ⟨h, hh⟩ := hg.lay
  refine ⟨sound_of_rank (ρ := fun n => h (n + 2) + 1) hbound (fun n _ => by omega) ?_ (fun n hn => ⟨n, hcov n hn⟩), hcov⟩
  intro k n hk
  have := hh _ ((N.edge hg).mpr hk)
  simp only at this ⊢
  omega

/-- The columns of the words of a row of segments. -/
theorem wordPlaces_eq {t : Table} {W : Work} (SH : Sound W.heads) (hb : ∀ n, W.Used n → n < W.words.length)
    (ht : markedStrings t = W.shownSegmented) (hsh : ∀ r ∈ t.rows, r.cells.length = t.columns.length) {k : Nat} {row : Row} {r : List Nat}
    (hr : t.rows[k]? = some row) (hr0 : W.rows[k]? = some r) : row.cells.length = W.heads.width ∧ wordPlaces row = W.places r := by
  have h1 : (markedStrings t)[k]? = some ((markedRow t row).map (fun x => (x.1, x.2.map (List.map Token.str)))) := by
    unfold markedStrings
    rw [List.getElem?_map, hr, Option.map_some]
  have h2 : W.shownSegmented[k]? = some ((List.range W.heads.width).map (fun x => (W.heads.variantAt (x + 1),
      ((r.splitBy W.glued).find? (fun s => decide (W.heads.column (Work.first s) = x + 1))).map (fun s => s.filterMap (fun n => W.words[n]?))))) := by
    unfold Work.shownSegmented Work.segments
    rw [List.getElem?_map, List.getElem?_map, hr0]
    rfl
  rw [ht, h2] at h1
  have h3 := Option.some.inj h1
  have hl := hsh row (List.mem_of_getElem? hr)
  have hlen : row.cells.length = W.heads.width := by
    have := congrArg List.length h3
    unfold markedRow at this
    simp at this
    omega
  refine ⟨hlen, ?_⟩
  have hcell : ∀ x < W.heads.width, cellAt row x = ((r.splitBy W.glued).find? (fun s => decide (W.heads.column (Work.first s) = x + 1))).map
      (fun s => s.filterMap (fun n => W.words[n]?)) := by
    intro x hx
    have h4 := congrArg (fun l => (l[x]?).bind Prod.snd) h3
    simp only [List.getElem?_map, List.getElem?_range hx, Option.map_some, Option.bind_some] at h4
    rw [h4]
    unfold cellAt markedRow
    have h5 : row.cells[x]? = some (row.cells[x]'(by omega)) := List.getElem?_eq_getElem _
    have h6 : (t.columns.map Column.variant)[x]? = some ((t.columns.map Column.variant)[x]'(by rw [List.length_map]; omega)) := List.getElem?_eq_getElem _
    have h7 := (List.getElem?_zip_eq_some (i := x) (z := (_, _))).mpr ⟨h6, h5⟩
    rw [h7, h5]
    rfl
  unfold wordPlaces Spec.Work.places
  rw [hlen]
  conv => rhs; rw [← SH.segments_of_row (List.mem_of_getElem? hr0)]
  have hfl : ∀ s ∈ r.splitBy W.glued, (s.filterMap (fun n => W.words[n]?)).length = s.length := by
    intro s hs
    have : ∀ n ∈ s, n < W.words.length := fun n hn => hb n ⟨r, List.mem_of_getElem? hr0, by
      rw [← List.flatten_splitBy W.glued r]
      exact List.mem_flatten_of_mem hs hn⟩
    clear hs
    induction s with
    | nil => rfl
    | cons n s ih =>
      rw [List.filterMap_cons, List.getElem?_eq_getElem (this n (by simp))]
      simp [ih (fun m hm => this m (by simp [hm]))]
  have hin : ∀ x ∈ List.range W.heads.width, x < W.heads.width := fun x hx => List.mem_range.mp hx
  revert hin
  generalize List.range W.heads.width = l
  intro hin
  induction l with
  | nil => rfl
  | cons x l ih =>
    rw [List.flatMap_cons, ih (fun x hx => hin x (by simp [hx])), hcell x (hin x (by simp)), List.filterMap_cons]
    cases hx : (r.splitBy W.glued).find? (fun s => decide (W.heads.column (Work.first s) = x + 1)) with
    | none => simp
    | some s =>
      have h8 : W.heads.column (Work.first s) = x + 1 := by simpa using List.find?_some hx
      simp only [Option.map_some, Option.getD_some, List.flatMap_cons]
      congr 1
      rw [h8, List.map_const', List.map_const', hfl s (List.mem_of_find?_eq_some hx)]
      rfl

/-- C115 with segmentation, as far as it holds: if one more witness is collated, the table has at least as many columns as before, and no word
of the earlier witnesses moves to the left. The condition: before each of the earlier witnesses is collated, the short program of C103 has no
column with two nodes that have the same word. What is missing is as before. -/
theorem C115_segmented_partial (env : Env) (hts : TopoSpec env.topo) (us : List Witness) (w : Witness) (hv : Valid (us ++ [w])) (hne : us ≠ [])
    (hsg : ∀ u ∈ us ++ [w], u.sigil ≠ []) (o : Opts) (ho : ExactMatching o) (hf : o.pfilter = none) (hseg : o.segmentation = true)
    (hu : ∀ n < us.length, (workOf ((us.map strings).take n)).Untwinned) :
    ∃ t0 t, collateTable env us o = .ok t0 ∧ collateTable env (us ++ [w]) o = .ok t ∧ t0.columns.length ≤ t.columns.length ∧
      ∀ (k : Nat) row0 row, t0.rows[k]? = some row0 → t.rows[k]? = some row → List.Forall₂ (· ≤ ·) (wordPlaces row0) (wordPlaces row) := by
  have hvu : Valid us := by
    have := hv.take (n := us.length) (List.length_pos_iff.mpr hne)
    rwa [List.take_left] at this
  have hsu : ∀ u ∈ us, u.sigil ≠ [] := fun u hu => hsg u (List.mem_append_left _ hu)
  obtain ⟨t0, W, g0, ps0, h1, h2, h3, h4, h5⟩ := segmented_core env hts us hvu hsu o ho hf hseg
  obtain ⟨t, W', g1, ps1, k1, k2, k3, k4, k5⟩ := segmented_core env hts (us ++ [w]) hv hsg o ho hf hseg
  obtain ⟨r1, s1, _⟩ := C26_table_shape env hts _ hvu hsu o ho t0 h1
  obtain ⟨r2, s2, _⟩ := C26_table_shape env hts _ hv hsg o ho t k1
  have s1 := fun r hr => (s1 r hr).1
  have s2 := fun r hr => (s2 r hr).1
  obtain ⟨S, hd⟩ := h3.sound_of_ginv h4
  obtain ⟨S', hd'⟩ := k3.sound_of_ginv k4
  have hrows : ∃ r, W'.rows = W.rows ++ [r] := by
    rw [List.map_append] at k2
    generalize hts : us.map strings ++ [w].map strings = ts at k2
    cases k2 with
    | nil => simp at hts
    | @add ts' W0 B pick hW0 hp =>
      have h6 : us.map strings = ts' := by
        have := congrArg List.dropLast hts
        simpa using this
      subst h6
      have e1 := h2.unique (by rw [List.length_map]; exact hu)
      have e2 := hW0.unique (by rw [List.length_map]; exact hu)
      rw [e1, e2]
      exact ⟨_, rfl⟩
  obtain ⟨r', hr'⟩ := hrows
  have SH := S.heads hd
  have SH' := S'.heads hd'
  have hrow : ∀ {ts : List (List Str)} {V : Work}, Worked ts V → V.rows.length = ts.length := by
    intro ts V h
    induction h with
    | nil => rfl
    | add B pick _ _ ih => simp [Work.add, ih]
  have hlen0 : t0.rows.length = W.rows.length := by
    have := congrArg List.length h5
    simpa [markedStrings, Work.shownSegmented, Work.segments] using this
  have hlen : t.rows.length = W'.rows.length := by
    have := congrArg List.length k5
    simpa [markedStrings, Work.shownSegmented, Work.segments] using this
  have hW := hrow h2
  rw [List.length_map] at hW
  have hpos := List.length_pos_iff.mpr hne
  refine ⟨t0, t, h1, k1, ?_, ?_⟩
  · have e0 : t0.rows[0]? = some (t0.rows[0]'(by omega)) := List.getElem?_eq_getElem _
    have e1 : W.rows[0]? = some (W.rows[0]'(by omega)) := List.getElem?_eq_getElem _
    have hlt : 0 < W'.rows.length := by rw [hr', List.length_append]; omega
    have e2 : t.rows[0]? = some (t.rows[0]'(by omega)) := List.getElem?_eq_getElem _
    have e3 : W'.rows[0]? = some (W'.rows[0]'hlt) := List.getElem?_eq_getElem _
    have a1 := (wordPlaces_eq SH S.bound h5 s1 e0 e1).1
    have a2 := (wordPlaces_eq SH' S'.bound k5 s2 e2 e3).1
    have := s1 _ (List.mem_of_getElem? e0)
    have := s2 _ (List.mem_of_getElem? e2)
    have := heads_width_le hr' SH SH'
    omega
  · intro k row0 row e0 e2
    have hk : k < W.rows.length := by rw [← hlen0]; exact (List.getElem?_eq_some_iff.mp e0).1
    have e1 : W.rows[k]? = some (W.rows[k]'hk) := List.getElem?_eq_getElem _
    have e3 : W'.rows[k]? = some (W.rows[k]'hk) := by rw [hr', List.getElem?_append_left hk, e1]
    rw [(wordPlaces_eq SH S.bound h5 s1 e0 e1).2, (wordPlaces_eq SH' S'.bound k5 s2 e2 e3).2]
    exact places_le hr' SH' (List.getElem_mem _)

/-- Up to two earlier witnesses there is no condition on the collation. -/
theorem C115_segmented_third_partial (env : Env) (hts : TopoSpec env.topo) (us : List Witness) (w : Witness) (hv : Valid (us ++ [w])) (hne : us ≠ [])
    (h2 : us.length ≤ 2) (hsg : ∀ u ∈ us ++ [w], u.sigil ≠ []) (o : Opts) (ho : ExactMatching o) (hf : o.pfilter = none)
    (hseg : o.segmentation = true) :
    ∃ t0 t, collateTable env us o = .ok t0 ∧ collateTable env (us ++ [w]) o = .ok t ∧ t0.columns.length ≤ t.columns.length ∧
      ∀ (k : Nat) row0 row, t0.rows[k]? = some row0 → t.rows[k]? = some row → List.Forall₂ (· ≤ ·) (wordPlaces row0) (wordPlaces row) :=
  C115_segmented_partial env hts us w hv hne hsg o ho hf hseg (by
    have := untwinned_two (ts := us.map strings) (by rw [List.length_map]; exact h2)
    rwa [List.length_map] at this)

/-- With three earlier witnesses it is enough that the second repeats no word. -/
theorem C115_segmented_fourth_partial (env : Env) (hts : TopoSpec env.topo) (us : List Witness) (w : Witness) (hv : Valid (us ++ [w])) (hne : us ≠ [])
    (h3 : us.length ≤ 3) (hsg : ∀ u ∈ us ++ [w], u.sigil ≠ []) (hrep : ∀ w, us[1]? = some w → NoRepeats w) (o : Opts) (ho : ExactMatching o)
    (hf : o.pfilter = none) (hseg : o.segmentation = true) :
    ∃ t0 t, collateTable env us o = .ok t0 ∧ collateTable env (us ++ [w]) o = .ok t ∧ t0.columns.length ≤ t.columns.length ∧
      ∀ (k : Nat) row0 row, t0.rows[k]? = some row0 → t.rows[k]? = some row → List.Forall₂ (· ≤ ·) (wordPlaces row0) (wordPlaces row) :=
  C115_segmented_partial env hts us w hv hne hsg o ho hf hseg (untwinned_three (by
    have := hv.take (n := us.length) (List.length_pos_iff.mpr hne)
    rwa [List.take_left] at this) (fun w hw => hsg w (List.mem_append_left _ hw)) h3 hrep)

/-- A case of C115 with segmentation: `black cat ran home` is cut after `black`, and `cat ran home` moves to a column of its own. -/
example : ∃ t0 t, collateTable exampleEnv (segWitnesses.take 2) {} = .ok t0 ∧ collateTable exampleEnv segWitnesses {} = .ok t ∧
    t0.columns.length = 3 ∧ t.columns.length = 4 ∧ t0.rows.map wordPlaces = [[0, 2, 2, 2, 2], [0, 1, 1, 2, 2, 2, 2]] ∧
    t.rows.map wordPlaces = [[0, 2, 3, 3, 3], [0, 1, 1, 2, 3, 3, 3], [0, 1, 1, 3, 3, 3]] ∧
    ∀ (k : Nat) row0 row, t0.rows[k]? = some row0 → t.rows[k]? = some row → List.Forall₂ (· ≤ ·) (wordPlaces row0) (wordPlaces row) := by
  obtain ⟨t0, t, h1, h2, _, h3⟩ := C115_segmented_third_partial exampleEnv kahn_spec (segWitnesses.take 2)
    (wordsWitness "C" ["the", "white", "and", "cat", "ran", "home"])
    (valid_of_check (by decide) (by decide) (by decide) (by decide)) (by decide) (by decide) (by decide) {} ⟨rfl, rfl, rfl⟩ rfl rfl
  have e1 : (collateTable exampleEnv (segWitnesses.take 2) {}).map (fun t => (t.columns.length, t.rows.map wordPlaces)) =
      .ok (3, [[0, 2, 2, 2, 2], [0, 1, 1, 2, 2, 2, 2]]) := by decide +kernel
  have e2 : (collateTable exampleEnv segWitnesses {}).map (fun t => (t.columns.length, t.rows.map wordPlaces)) =
      .ok (4, [[0, 2, 3, 3, 3], [0, 1, 1, 2, 3, 3, 3], [0, 1, 1, 3, 3, 3]]) := by decide +kernel
  have h2' : collateTable exampleEnv segWitnesses {} = .ok t := h2
  rw [h1] at e1
  rw [h2'] at e2
  have e1 := Prod.mk.inj (Except.ok.inj e1)
  have e2 := Prod.mk.inj (Except.ok.inj e2)
  exact ⟨t0, t, h1, h2', e1.1, e2.1, e1.2, e2.2, h3⟩

/-- C115 is false without the condition with segmentation too: with the witness `~`, one column fewer is made of the others, and words move to
the left. -/
theorem C115_segmented_narrower : Valid narrowerWitnesses ∧ ∃ t0 t, collateTable exampleEnv (narrowerWitnesses.take 4) {} = .ok t0 ∧
    collateTable exampleEnv narrowerWitnesses {} = .ok t ∧ t0.columns.length = 7 ∧ t.columns.length = 6 ∧
    (t0.rows.map wordPlaces)[0]? = some [2, 5, 6, 6, 6] ∧ (t.rows.map wordPlaces)[0]? = some [2, 3, 3, 3, 3] := by
  refine ⟨valid_of_check (by decide) (by decide) (by decide) (by decide), ?_⟩
  have e1 : (collateTable exampleEnv (narrowerWitnesses.take 4) {}).map (fun t => (t.columns.length, (t.rows.map wordPlaces)[0]?)) =
      .ok (7, some [2, 5, 6, 6, 6]) := by decide +kernel
  have e2 : (collateTable exampleEnv narrowerWitnesses {}).map (fun t => (t.columns.length, (t.rows.map wordPlaces)[0]?)) =
      .ok (6, some [2, 3, 3, 3, 3]) := by decide +kernel
  cases h1 : collateTable exampleEnv (narrowerWitnesses.take 4) {} with
  | error e => rw [h1] at e1; exact absurd e1 (by simp [Except.map])
  | ok t0 =>
    cases h2 : collateTable exampleEnv narrowerWitnesses {} with
    | error e => rw [h2] at e2; exact absurd e2 (by simp [Except.map])
    | ok t =>
      rw [h1] at e1
      rw [h2] at e2
      have e1 := Prod.mk.inj (Except.ok.inj e1)
      have e2 := Prod.mk.inj (Except.ok.inj e2)
      exact ⟨t0, t, rfl, rfl, e1.1, e2.1, e1.2, e2.2⟩

end CollateX
