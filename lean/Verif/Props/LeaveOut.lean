import Verif.Props.CutSegmented
import Verif.Props.Opening
/-
C110: common words at the beginning and at the end can be left out.
-/

namespace CollateX
open Spec

section
variable {env : Env} {ws us : List Witness} {o : Opts} {t : Table}

/-- C108 with and without segmentation. -/
theorem cut_either (env : Env) (hts : TopoSpec env.topo) (ws : List Witness) (hv : Valid ws) (hs : ∀ w ∈ ws, w.sigil ≠ [])
    (hrep : ∀ w ∈ ws.tail, NoRepeats w) (hu : ∀ n < ws.length, (workOf ((ws.map strings).take n)).Untwinned) (o : Opts) (ho : ExactMatching o)
    (hf : o.pfilter = none) {t : Table} (ht : collateTable env ws o = .ok t) {k : Nat} {c : Column} (hc : t.columns[k]? = some c)
    (hcv : c.variant = false) :
    (∀ us, Valid us → (∀ w ∈ us, w.sigil ≠ []) → us.map strings = (markedStrings t).map (fun r => wordsOfCells (r.take k)) →
      ∃ t', collateTable env us o = .ok t' ∧ markedStrings t' = (markedStrings t).map (List.take k)) ∧
    (∀ us, Valid us → (∀ w ∈ us, w.sigil ≠ []) → us.map strings = (markedStrings t).map (fun r => wordsOfCells (r.drop (k + 1))) →
      ∃ t', collateTable env us o = .ok t' ∧ markedStrings t' = (markedStrings t).map (List.drop (k + 1))) := by
  cases hseg : o.segmentation with
  | false =>
    obtain ⟨t', h1, h2⟩ := C108_cut_many_partial env hts ws hv hs hrep hu o ho hf hseg
    obtain rfl := Except.ok.inj (h1.symm.trans ht)
    exact h2 k c hc hcv
  | true =>
    obtain ⟨t', h1, h2⟩ := C108_segmented_many_partial env hts ws hv hs hrep hu o ho hf hseg
    obtain rfl := Except.ok.inj (h1.symm.trans ht)
    exact h2 k c hc hcv

/-- The rows have the words of the witnesses. -/
theorem rows_words (env : Env) (hts : TopoSpec env.topo) (ws : List Witness) (hv : Valid ws) (hs : ∀ w ∈ ws, w.sigil ≠ [])
    (hu : ∀ n < ws.length, (workOf ((ws.map strings).take n)).Untwinned) (o : Opts) (ho : ExactMatching o)
    (hf : o.pfilter = none) {t : Table} (ht : collateTable env ws o = .ok t) : (markedStrings t).map wordsOfCells = ws.map strings := by
  obtain ⟨S, hW⟩ := workOf_sound hv hv.ne hu
  cases hseg : o.segmentation with
  | false =>
    obtain ⟨t', h1, h2⟩ := C103_computed env hts ws hv hs o ho hf hseg hu
    obtain rfl := Except.ok.inj (h1.symm.trans ht)
    rw [h2]
    exact wordsOfCells_shown S
  | true =>
    obtain ⟨t', h1, h2⟩ := C104_computed env hts ws hv hs o ho hf hseg hu
    obtain rfl := Except.ok.inj (h1.symm.trans ht)
    rw [h2]
    exact wordsOfCells_segmented (S.heads hW)

theorem leave_front (env : Env) (hts : TopoSpec env.topo) (ws us : List Witness) (hv : Valid ws) (hs : ∀ w ∈ ws, w.sigil ≠ [])
    (hrep : ∀ w ∈ ws.tail, NoRepeats w) (hu : ∀ n < ws.length, (workOf ((ws.map strings).take n)).Untwinned) (o : Opts) (ho : ExactMatching o)
    (hf : o.pfilter = none) {t : Table} (ht : collateTable env ws o = .ok t) {k : Nat} {c : Column} (hc : t.columns[k]? = some c)
    (hcv : c.variant = false) (hvu : Valid us) (hsu : ∀ w ∈ us, w.sigil ≠ []) {P : List Str} (hus : ws.map strings = us.map (fun u => P ++ strings u))
    {H : List (Bool × Option (List Str))} (hH : wordsOfCells H = P) (hrow : ∀ r ∈ markedStrings t, r.take (k + 1) = H) :
    ∃ t', collateTable env us o = .ok t' ∧ markedStrings t = (markedStrings t').map (H ++ ·) := by
  have hw := rows_words env hts ws hv hs hu o ho hf ht
  obtain ⟨t', h1, h2⟩ := (cut_either env hts ws hv hs hrep hu o ho hf ht hc hcv).2 us hvu hsu (by
    refine List.map_injective_iff.mpr (List.append_right_injective P) ?_
    rw [List.map_map, List.map_map]
    refine (hus.symm.trans hw.symm).trans ?_
    apply List.map_congr_left
    intro r hr
    simp only [Function.comp]
    conv => lhs; rw [← List.take_append_drop (k + 1) r, hrow r hr]
    rw [← hH]
    exact List.flatMap_append)
  refine ⟨t', h1, ?_⟩
  rw [h2, List.map_map]
  conv => lhs; rw [← List.map_id (markedStrings t)]
  apply List.map_congr_left
  intro r hr
  simp only [Function.comp, id]
  rw [← hrow r hr, List.take_append_drop]

theorem leave_back (env : Env) (hts : TopoSpec env.topo) (ws us : List Witness) (hv : Valid ws) (hs : ∀ w ∈ ws, w.sigil ≠ [])
    (hrep : ∀ w ∈ ws.tail, NoRepeats w) (hu : ∀ n < ws.length, (workOf ((ws.map strings).take n)).Untwinned) (o : Opts) (ho : ExactMatching o)
    (hf : o.pfilter = none) {t : Table} (ht : collateTable env ws o = .ok t) {k : Nat} {c : Column} (hc : t.columns[k]? = some c)
    (hcv : c.variant = false) (hvu : Valid us) (hsu : ∀ w ∈ us, w.sigil ≠ []) {Q : List Str} (hus : ws.map strings = us.map (fun u => strings u ++ Q))
    {H : List (Bool × Option (List Str))} (hH : wordsOfCells H = Q) (hrow : ∀ r ∈ markedStrings t, r.drop k = H) :
    ∃ t', collateTable env us o = .ok t' ∧ markedStrings t = (markedStrings t').map (· ++ H) := by
  have hw := rows_words env hts ws hv hs hu o ho hf ht
  obtain ⟨t', h1, h2⟩ := (cut_either env hts ws hv hs hrep hu o ho hf ht hc hcv).1 us hvu hsu (by
    refine List.map_injective_iff.mpr (List.append_left_injective Q) ?_
    rw [List.map_map, List.map_map]
    refine (hus.symm.trans hw.symm).trans ?_
    apply List.map_congr_left
    intro r hr
    simp only [Function.comp]
    conv => lhs; rw [← List.take_append_drop k r, hrow r hr]
    rw [← hH]
    exact List.flatMap_append)
  refine ⟨t', h1, ?_⟩
  rw [h2, List.map_map]
  conv => lhs; rw [← List.map_id (markedStrings t)]
  apply List.map_congr_left
  intro r hr
  simp only [Function.comp, id]
  rw [← hrow r hr, List.take_append_drop]

/-- The table depends on the words alone. -/
theorem same_words (env : Env) (hts : TopoSpec env.topo) (ws us : List Witness) (hv : Valid ws) (hs : ∀ w ∈ ws, w.sigil ≠ [])
    (hu : ∀ n < ws.length, (workOf ((ws.map strings).take n)).Untwinned) (o : Opts) (ho : ExactMatching o)
    (hf : o.pfilter = none) {t : Table} (ht : collateTable env ws o = .ok t) (hvu : Valid us) (hsu : ∀ w ∈ us, w.sigil ≠ [])
    (hus : ws.map strings = us.map strings) : ∃ t', collateTable env us o = .ok t' ∧ markedStrings t = markedStrings t' := by
  have hlen : us.length = ws.length := by simpa using congrArg List.length hus.symm
  have hu' : ∀ n < us.length, (workOf ((us.map strings).take n)).Untwinned := by
    rw [← hus, hlen]
    exact hu
  cases hseg : o.segmentation with
  | false =>
    obtain ⟨t', h1, h2⟩ := C103_computed env hts ws hv hs o ho hf hseg hu
    obtain rfl := Except.ok.inj (h1.symm.trans ht)
    obtain ⟨t'', h3, h4⟩ := C103_computed env hts us hvu hsu o ho hf hseg hu'
    exact ⟨t'', h3, by rw [h2, h4, hus]⟩
  | true =>
    obtain ⟨t', h1, h2⟩ := C104_computed env hts ws hv hs o ho hf hseg hu
    obtain rfl := Except.ok.inj (h1.symm.trans ht)
    obtain ⟨t'', h3, h4⟩ := C104_computed env hts us hvu hsu o ho hf hseg hu'
    exact ⟨t'', h3, by rw [h2, h4, hus]⟩

end

/-- Words that all witnesses have, one in each column. -/
def Spec.agreedCells (P : List Str) : List (Bool × Option (List Str)) := P.map (fun a => (false, some [a]))

theorem wordsOfCells_agreed (P : List Str) : wordsOfCells (agreedCells P) = P := by
  unfold wordsOfCells agreedCells
  rw [List.flatMap_map]
  simp

/-- A cell of a row with marks. -/
theorem marked_cell {t : Table} {row : Row} {r : List (Bool × Option (List Str))}
    (he : r = (markedRow t row).map (fun x => (x.1, x.2.map (List.map Token.str)))) {i : Nat} {c : Column} {x : Option (List Token)}
    (hc : t.columns[i]? = some c) (hx : row.cells[i]? = some x) : r[i]? = some (c.variant, x.map (List.map Token.str)) := by
  subst he
  unfold markedRow
  rw [List.getElem?_map, Option.map_eq_some_iff]
  refine ⟨(c.variant, x), ?_, rfl⟩
  rw [List.getElem?_zip_eq_some]
  exact ⟨by rw [List.getElem?_map, hc, Option.map_some], hx⟩

/-- C110, the beginning, without segmentation: if all witnesses begin with the same words and have each of them once, these words can be left out;
the table is one column for each of them and then the table of the rest. -/
theorem C110_opening_partial (env : Env) (hts : TopoSpec env.topo) (ws us : List Witness) (hv : Valid ws) (hs : ∀ w ∈ ws, w.sigil ≠ [])
    (hvu : Valid us) (hsu : ∀ w ∈ us, w.sigil ≠ []) (hrep : ∀ w ∈ ws.tail, NoRepeats w)
    (hu : ∀ n < ws.length, (workOf ((ws.map strings).take n)).Untwinned) (P : List Str) (hus : ws.map strings = us.map (fun u => P ++ strings u))
    (hop : ∀ w ∈ ws, ∀ a ∈ P, (strings w).count a = 1) (o : Opts) (ho : ExactMatching o) (hf : o.pfilter = none) (hseg : o.segmentation = false) :
    ∃ t t', collateTable env ws o = .ok t ∧ collateTable env us o = .ok t' ∧ markedStrings t = (markedStrings t').map (agreedCells P ++ ·) := by
  have hop' : ∀ w ∈ ws, OpensWith w P := by
    intro w hw
    refine ⟨?_, hop w hw⟩
    have : strings w ∈ us.map (fun u => P ++ strings u) := by rw [← hus]; exact List.mem_map_of_mem hw
    obtain ⟨u, _, he⟩ := List.mem_map.mp this
    exact ⟨strings u, he⟩
  obtain ⟨t, h1, _, hA⟩ := C85_common_opening_partial env hts ws hv hs P hop' o ho hf hseg
  cases hP : P with
  | nil =>
    subst hP
    obtain ⟨t', h2, h3⟩ := same_words env hts ws us hv hs hu o ho hf h1 hvu hsu (by simpa using hus)
    exact ⟨t, t', h1, h2, by rw [h3]; simp [agreedCells]⟩
  | cons a l =>
    obtain ⟨c, hc, hcv, _⟩ := hA (P.length - 1) (P[P.length - 1]'(by rw [hP]; simp)) (List.getElem?_eq_getElem _)
    have hlen : P.length - 1 + 1 = P.length := by rw [hP]; simp
    obtain ⟨t', h2, h3⟩ := leave_front env hts ws us hv hs hrep hu o ho hf h1 hc hcv hvu hsu hus (wordsOfCells_agreed P) (by
      intro r hr
      rw [hlen]
      obtain ⟨row, hrow, he⟩ := List.mem_map.mp hr
      apply List.ext_getElem?
      intro i
      rcases Nat.lt_or_ge i P.length with hi | hi
      · obtain ⟨ci, h4, h5, h6⟩ := hA i (P[i]) (List.getElem?_eq_getElem hi)
        obtain ⟨tok, h7, h8⟩ := h6 row hrow
        rw [List.getElem?_take_of_lt hi, marked_cell he.symm h4 h7, h5]
        unfold agreedCells
        rw [List.getElem?_map, List.getElem?_eq_getElem hi]
        simp [h8]
      · rw [List.getElem?_eq_none (by rw [List.length_take]; omega), List.getElem?_eq_none (by unfold agreedCells; simpa using hi)])
    rw [← hP]
    exact ⟨t, t', h1, h2, h3⟩

/-- C110, the end, without segmentation: if all witnesses end with the same words, these words can be left out; the table is the table of the rest and
then one column for each of them. -/
theorem C110_ending_partial (env : Env) (hts : TopoSpec env.topo) (ws us : List Witness) (hv : Valid ws) (hs : ∀ w ∈ ws, w.sigil ≠ [])
    (hvu : Valid us) (hsu : ∀ w ∈ us, w.sigil ≠ []) (hrep : ∀ w ∈ ws.tail, NoRepeats w)
    (hu : ∀ n < ws.length, (workOf ((ws.map strings).take n)).Untwinned) (Q : List Str) (hus : ws.map strings = us.map (fun u => strings u ++ Q))
    (o : Opts) (ho : ExactMatching o) (hf : o.pfilter = none) (hseg : o.segmentation = false) :
    ∃ t t', collateTable env ws o = .ok t ∧ collateTable env us o = .ok t' ∧ markedStrings t = (markedStrings t').map (· ++ agreedCells Q) := by
  have hend : ∀ w ∈ ws, Q <:+ strings w := by
    intro w hw
    have : strings w ∈ us.map (fun u => strings u ++ Q) := by rw [← hus]; exact List.mem_map_of_mem hw
    obtain ⟨u, _, he⟩ := List.mem_map.mp this
    exact ⟨strings u, he⟩
  obtain ⟨w0, l, rfl⟩ : ∃ w0 l, ws = w0 :: l := by
    cases ws with
    | nil => exact absurd rfl hv.ne
    | cons w0 l => exact ⟨w0, l, rfl⟩
  obtain ⟨t, h1, _, hle, hA⟩ := C78_common_ending_partial env hts w0 l hv hs Q hend (fun w hw a _ i h1 h2 => hrep w hw i a h1 h2) o ho hf hseg
  cases hQ : Q with
  | nil =>
    subst hQ
    obtain ⟨t', h2, h3⟩ := same_words env hts _ us hv hs hu o ho hf h1 hvu hsu (by simpa using hus)
    exact ⟨t, t', h1, h2, by rw [h3]; simp [agreedCells]⟩
  | cons a q =>
    obtain ⟨c, hc, hcv, _⟩ := hA 0 a (by rw [hQ]; rfl)
    rw [Nat.add_zero] at hc
    obtain ⟨_, hshape, _⟩ := C26_table_shape env hts _ hv hs o ho t h1
    obtain ⟨t', h2, h3⟩ := leave_back env hts _ us hv hs hrep hu o ho hf h1 hc hcv hvu hsu hus (wordsOfCells_agreed Q) (by
      intro r hr
      obtain ⟨row, hrow, he⟩ := List.mem_map.mp hr
      have hl := (hshape row hrow).1
      apply List.ext_getElem?
      intro i
      rw [List.getElem?_drop]
      rcases Nat.lt_or_ge i Q.length with hi | hi
      · obtain ⟨ci, h4, h5, h6⟩ := hA i (Q[i]) (List.getElem?_eq_getElem hi)
        obtain ⟨tok, h7, h8⟩ := h6 row hrow
        rw [marked_cell he.symm h4 h7, h5]
        unfold agreedCells
        rw [List.getElem?_map, List.getElem?_eq_getElem hi]
        simp [h8]
      · have hrl : r.length ≤ t.columns.length := by
          rw [← he]
          unfold markedRow
          simp
        rw [List.getElem?_eq_none (by omega), List.getElem?_eq_none (by unfold agreedCells; simpa using hi)])
    rw [← hQ]
    exact ⟨t, t', h1, h2, h3⟩

/-- C110, the beginning, with segmentation: if all witnesses begin with the same words and have each of them once, and do not all go on with the same
word, the table is one column with these words and then the table of the rest. -/
theorem C110_opening_segmented_partial (env : Env) (hts : TopoSpec env.topo) (ws us : List Witness) (hv : Valid ws) (hs : ∀ w ∈ ws, w.sigil ≠ [])
    (hvu : Valid us) (hsu : ∀ w ∈ us, w.sigil ≠ []) (hrep : ∀ w ∈ ws.tail, NoRepeats w)
    (hu : ∀ n < ws.length, (workOf ((ws.map strings).take n)).Untwinned) (P : List Str) (hP : P ≠ [])
    (hus : ws.map strings = us.map (fun u => P ++ strings u)) (hop : ∀ w ∈ ws, ∀ a ∈ P, (strings w).count a = 1)
    (hdiff : ¬ ∃ a, ∀ u ∈ us, (strings u).head? = some a) (o : Opts) (ho : ExactMatching o) (hf : o.pfilter = none) (hseg : o.segmentation = true) :
    ∃ t t', collateTable env ws o = .ok t ∧ collateTable env us o = .ok t' ∧ markedStrings t = (markedStrings t').map ((false, some P) :: ·) := by
  have hop' : ∀ w ∈ ws, OpensWith w P := by
    intro w hw
    refine ⟨?_, hop w hw⟩
    have : strings w ∈ us.map (fun u => P ++ strings u) := by rw [← hus]; exact List.mem_map_of_mem hw
    obtain ⟨u, _, he⟩ := List.mem_map.mp this
    exact ⟨strings u, he⟩
  obtain ⟨t, h1, _, c, hc, hcv, hcells⟩ := C85_segmented_partial env hts ws hv hs P hP hop' o ho hf hseg
  have hw := (rows_words env hts ws hv hs hu o ho hf h1).trans hus
  obtain ⟨l, _, hl⟩ := C27_invariant_columns env hts ws hv hs o ho t h1 0 c hc hcv
  have hfirst : ∀ r ∈ markedStrings t, ∃ r', r = (false, some l) :: r' := by
    intro r hr
    obtain ⟨row, hrow, he⟩ := List.mem_map.mp hr
    obtain ⟨ts, h2, h3⟩ := hl row hrow
    have := marked_cell he.symm hc h2
    rw [hcv, Option.map_some, h3] at this
    cases r with
    | nil => cases this
    | cons x r => exact ⟨r, by rw [List.getElem?_cons_zero, Option.some.injEq] at this; rw [this]⟩
  obtain ⟨u0, hu0⟩ := List.exists_mem_of_ne_nil _ hvu.ne
  have hrow0 : P ++ strings u0 ∈ (markedStrings t).map wordsOfCells := by rw [hw]; exact List.mem_map.mpr ⟨u0, hu0, rfl⟩
  obtain ⟨r0, hr0, _⟩ := List.mem_map.mp hrow0
  obtain ⟨row0, hrow0, he0⟩ := List.mem_map.mp hr0
  have hPl : P <+: l := by
    obtain ⟨ts, h2, h3⟩ := hl row0 hrow0
    obtain ⟨ts', h4, h5⟩ := hcells row0 hrow0
    rw [h2, Option.some.injEq, Option.some.injEq] at h4
    rwa [← h4, h3] at h5
  obtain ⟨m, rfl⟩ := hPl
  have hm : m = [] := by
    cases m with
    | nil => rfl
    | cons a m =>
      refine absurd ⟨a, ?_⟩ hdiff
      intro u hu
      have : P ++ strings u ∈ (markedStrings t).map wordsOfCells := by rw [hw]; exact List.mem_map.mpr ⟨u, hu, rfl⟩
      obtain ⟨r, hr, he⟩ := List.mem_map.mp this
      obtain ⟨r', rfl⟩ := hfirst r hr
      have he : (P ++ a :: m) ++ wordsOfCells r' = P ++ strings u := he
      rw [List.append_assoc] at he
      rw [← List.append_cancel_left he]
      rfl
  subst hm
  rw [List.append_nil] at hfirst
  obtain ⟨t', h2, h3⟩ := leave_front env hts ws us hv hs hrep hu o ho hf h1 hc hcv hvu hsu hus (H := [(false, some P)])
    (by unfold wordsOfCells; simp) (by
      intro r hr
      obtain ⟨r', rfl⟩ := hfirst r hr
      rfl)
  exact ⟨t, t', h1, h2, h3⟩

/-- C110, the end, with segmentation: if all witnesses end with the same words and do not all have the same word before them, the table is the table of
the rest and then one column with these words. -/
theorem C110_ending_segmented_partial (env : Env) (hts : TopoSpec env.topo) (ws us : List Witness) (hv : Valid ws) (hs : ∀ w ∈ ws, w.sigil ≠ [])
    (hvu : Valid us) (hsu : ∀ w ∈ us, w.sigil ≠ []) (hrep : ∀ w ∈ ws.tail, NoRepeats w)
    (hu : ∀ n < ws.length, (workOf ((ws.map strings).take n)).Untwinned) (Q : List Str) (hQ : Q ≠ [])
    (hus : ws.map strings = us.map (fun u => strings u ++ Q))
    (hdiff : ¬ ∃ a, ∀ u ∈ us, (strings u).getLast? = some a) (o : Opts) (ho : ExactMatching o) (hf : o.pfilter = none) (hseg : o.segmentation = true) :
    ∃ t t', collateTable env ws o = .ok t ∧ collateTable env us o = .ok t' ∧ markedStrings t = (markedStrings t').map (· ++ [(false, some Q)]) := by
  have hend : ∀ w ∈ ws, Q <:+ strings w := by
    intro w hw
    have : strings w ∈ us.map (fun u => strings u ++ Q) := by rw [← hus]; exact List.mem_map_of_mem hw
    obtain ⟨u, _, he⟩ := List.mem_map.mp this
    exact ⟨strings u, he⟩
  obtain ⟨w0, ws', rfl⟩ : ∃ w0 l, ws = w0 :: l := by
    cases ws with
    | nil => exact absurd rfl hv.ne
    | cons w0 l => exact ⟨w0, l, rfl⟩
  obtain ⟨t, h1, _, c, hc, hcv, hcells⟩ := C78_segmented_partial env hts w0 ws' hv hs Q hQ hend (fun w hw a _ i h1 h2 => hrep w hw i a h1 h2) o ho hf hseg
  have hw := (rows_words env hts _ hv hs hu o ho hf h1).trans hus
  obtain ⟨_, hshape, _⟩ := C26_table_shape env hts _ hv hs o ho t h1
  rw [List.getLast?_eq_getElem?] at hc
  obtain ⟨l, _, hl⟩ := C27_invariant_columns env hts _ hv hs o ho t h1 _ c hc hcv
  have hpos : 0 < t.columns.length := by
    have := (List.getElem?_eq_some_iff.mp hc).1
    omega
  have hlast : ∀ r ∈ markedStrings t, r.drop (t.columns.length - 1) = [(false, some l)] := by
    intro r hr
    obtain ⟨row, hrow, he⟩ := List.mem_map.mp hr
    have hlen := (hshape row hrow).1
    obtain ⟨ts, h2, h3⟩ := hl row hrow
    have hx := marked_cell he.symm hc h2
    rw [hcv, Option.map_some, h3] at hx
    have hrl : r.length = t.columns.length := by
      rw [← he]
      unfold markedRow
      rw [List.length_map, List.length_zip, List.length_map]
      omega
    apply List.ext_getElem?
    intro i
    rw [List.getElem?_drop]
    cases i with
    | zero => exact hx
    | succ i => rw [List.getElem?_eq_none (by omega)]; rfl
  obtain ⟨u0, hu0⟩ := List.exists_mem_of_ne_nil _ hvu.ne
  have hrow0 : strings u0 ++ Q ∈ (markedStrings t).map wordsOfCells := by rw [hw]; exact List.mem_map.mpr ⟨u0, hu0, rfl⟩
  obtain ⟨r0, hr0, _⟩ := List.mem_map.mp hrow0
  obtain ⟨row0, hrow0, he0⟩ := List.mem_map.mp hr0
  have hQl : Q <:+ l := by
    obtain ⟨ts, h2, h3⟩ := hl row0 hrow0
    obtain ⟨ts', h4, h5⟩ := hcells row0 hrow0
    rw [List.getLast?_eq_getElem?, (hshape row0 hrow0).1, h2, Option.some.injEq, Option.some.injEq] at h4
    rwa [← h4, h3] at h5
  obtain ⟨m, rfl⟩ := hQl
  have hm : m = [] := by
    rcases List.eq_nil_or_concat m with rfl | ⟨m', a, rfl⟩
    · rfl
    · refine absurd ⟨a, ?_⟩ hdiff
      intro u hu
      have : strings u ++ Q ∈ (markedStrings t).map wordsOfCells := by rw [hw]; exact List.mem_map.mpr ⟨u, hu, rfl⟩
      obtain ⟨r, hr, he⟩ := List.mem_map.mp this
      have hd := hlast r hr
      rw [← List.take_append_drop (t.columns.length - 1) r, hd] at he
      have he : wordsOfCells (r.take (t.columns.length - 1) ++ [(false, some (m'.concat a ++ Q))]) = strings u ++ Q := he
      have e : wordsOfCells (r.take (t.columns.length - 1) ++ [(false, some (m'.concat a ++ Q))]) =
          (wordsOfCells (r.take (t.columns.length - 1)) ++ m' ++ [a]) ++ Q := by
        unfold wordsOfCells
        rw [List.flatMap_append]
        simp
      rw [e] at he
      rw [← List.append_cancel_right he]
      simp
  subst hm
  rw [List.nil_append] at hlast
  obtain ⟨t', h2, h3⟩ := leave_back env hts _ us hv hs hrep hu o ho hf h1 hc hcv hvu hsu hus (H := [(false, some Q)])
    (by unfold wordsOfCells; simp) hlast
  exact ⟨t, t', h1, h2, h3⟩

/-! ### Three witnesses -/

/-- A witness without its first words. -/
def Spec.withoutFirst (n : Nat) (w : Witness) : Witness := { w with tokens := w.tokens.drop n }

theorem strings_withoutFirst (n : Nat) (w : Witness) : strings (withoutFirst n w) = (strings w).drop n := by
  unfold strings withoutFirst
  rw [List.map_drop]

theorem middle_ready {ws us : List Witness} (hv : Valid ws) (hs : ∀ w ∈ ws, w.sigil ≠ []) (hvu : Valid us) (hrep : ∀ w ∈ ws.tail, NoRepeats w)
    {P Q : List Str} (hus : ws.map strings = us.map (fun u => P ++ strings u ++ Q)) :
    Valid (ws.map (withoutFirst P.length)) ∧ (∀ w ∈ ws.map (withoutFirst P.length), w.sigil ≠ []) ∧
    (∀ w ∈ (ws.map (withoutFirst P.length)).tail, NoRepeats w) ∧
    ws.map strings = (ws.map (withoutFirst P.length)).map (fun u => P ++ strings u) ∧
    (ws.map (withoutFirst P.length)).map strings = us.map (fun u => strings u ++ Q) := by
  have hall : ∀ w ∈ ws, ∃ u ∈ us, strings w = P ++ strings u ++ Q := by
    intro w hw
    have : strings w ∈ us.map (fun u => P ++ strings u ++ Q) := by rw [← hus]; exact List.mem_map_of_mem hw
    obtain ⟨u, hu, he⟩ := List.mem_map.mp this
    exact ⟨u, hu, he.symm⟩
  refine ⟨⟨?_, ?_, ?_, ?_⟩, ?_, ?_, ?_, ?_⟩
  · intro h
    exact hv.ne (List.map_eq_nil_iff.mp h)
  · intro w hw
    obtain ⟨w', hw', rfl⟩ := List.mem_map.mp hw
    obtain ⟨u, hu, he⟩ := hall w' hw'
    have h1 := congrArg List.length he
    have h2 := List.length_pos_iff.mpr (hvu.tokens u hu).1
    have h3 := (hv.tokens w' hw').2
    have e1 : (strings w').length = w'.tokens.length := List.length_map _
    have e2 : (strings u).length = u.tokens.length := List.length_map _
    rw [List.length_append, List.length_append] at h1
    refine ⟨?_, ?_⟩
    · intro h0
      have h0 : w'.tokens.drop P.length = [] := h0
      have := congrArg List.length h0
      rw [List.length_drop, List.length_nil] at this
      omega
    · show (w'.tokens.drop P.length).length < _
      rw [List.length_drop]
      omega
  · rw [List.map_map]
    exact hv.sigla
  · intro w hw tok htok
    obtain ⟨w', hw', rfl⟩ := List.mem_map.mp hw
    rw [List.length_map]
    exact hv.sep w' hw' tok (List.mem_of_mem_drop htok)
  · intro w hw
    obtain ⟨w', hw', rfl⟩ := List.mem_map.mp hw
    exact hs w' hw'
  · intro w hw
    rw [← List.map_tail] at hw
    obtain ⟨w', hw', rfl⟩ := List.mem_map.mp hw
    intro i a h1 h2
    rw [strings_withoutFirst, List.getElem?_drop] at h1 h2
    exact hrep w' hw' (P.length + i) a h1 h2
  · rw [List.map_map]
    apply List.map_congr_left
    intro w hw
    obtain ⟨u, hu, he⟩ := hall w hw
    simp only [Function.comp]
    rw [strings_withoutFirst, he, List.append_assoc, List.drop_left]
  · rw [List.map_map]
    have : (ws.map strings).map (List.drop P.length) = us.map (fun u => strings u ++ Q) := by
      rw [hus, List.map_map]
      apply List.map_congr_left
      intro u _
      simp only [Function.comp]
      rw [List.append_assoc, List.drop_left]
    rw [← this, List.map_map]
    apply List.map_congr_left
    intro w _
    exact strings_withoutFirst _ _

theorem untwinned_tail {ws : List Witness} (hv : Valid ws) (hs : ∀ w ∈ ws, w.sigil ≠ []) (h3 : ws.length ≤ 3) (hrep : ∀ w ∈ ws.tail, NoRepeats w) :
    ∀ n < ws.length, (workOf ((ws.map strings).take n)).Untwinned :=
  untwinned_three hv hs h3 (by
    intro w hw
    refine hrep w ?_
    match ws, hw with
    | A :: l, hw => exact List.mem_of_getElem? (i := 0) (by simpa using hw))

/-- C110 for at most three witnesses, the second and the third without equal neighbours: the words that all have at the beginning, each once in each
witness, and the words that all have at the end can be left out. -/
theorem C110_three_partial (env : Env) (hts : TopoSpec env.topo) (ws us : List Witness) (hv : Valid ws) (hs : ∀ w ∈ ws, w.sigil ≠ [])
    (hvu : Valid us) (hsu : ∀ w ∈ us, w.sigil ≠ []) (h3 : ws.length ≤ 3) (hrep : ∀ w ∈ ws.tail, NoRepeats w) (P Q : List Str)
    (hus : ws.map strings = us.map (fun u => P ++ strings u ++ Q)) (hop : ∀ w ∈ ws, ∀ a ∈ P, (strings w).count a = 1)
    (o : Opts) (ho : ExactMatching o) (hf : o.pfilter = none) (hseg : o.segmentation = false) :
    ∃ t t', collateTable env ws o = .ok t ∧ collateTable env us o = .ok t' ∧
      markedStrings t = (markedStrings t').map (fun r => agreedCells P ++ r ++ agreedCells Q) := by
  obtain ⟨hvm, hsm, hrm, e1, e2⟩ := middle_ready hv hs hvu hrep hus
  obtain ⟨t, t1, k1, k2, k3⟩ := C110_opening_partial env hts ws _ hv hs hvm hsm hrep (untwinned_tail hv hs h3 hrep) P e1 hop o ho hf hseg
  obtain ⟨t1', t', k4, k5, k6⟩ := C110_ending_partial env hts _ us hvm hsm hvu hsu hrm (untwinned_tail hvm hsm (by simpa using h3) hrm) Q e2 o ho hf hseg
  obtain rfl := Except.ok.inj (k2.symm.trans k4)
  refine ⟨t, t', k1, k5, ?_⟩
  rw [k3, k6, List.map_map]
  apply List.map_congr_left
  intro r _
  simp [Function.comp]

/-- The same with segmentation, if the rests neither all begin nor all end with the same word. -/
theorem C110_three_segmented_partial (env : Env) (hts : TopoSpec env.topo) (ws us : List Witness) (hv : Valid ws) (hs : ∀ w ∈ ws, w.sigil ≠ [])
    (hvu : Valid us) (hsu : ∀ w ∈ us, w.sigil ≠ []) (h3 : ws.length ≤ 3) (hrep : ∀ w ∈ ws.tail, NoRepeats w) (P Q : List Str) (hP : P ≠ []) (hQ : Q ≠ [])
    (hus : ws.map strings = us.map (fun u => P ++ strings u ++ Q)) (hop : ∀ w ∈ ws, ∀ a ∈ P, (strings w).count a = 1)
    (hfirst : ¬ ∃ a, ∀ u ∈ us, (strings u).head? = some a) (hlast : ¬ ∃ a, ∀ u ∈ us, (strings u).getLast? = some a)
    (o : Opts) (ho : ExactMatching o) (hf : o.pfilter = none) (hseg : o.segmentation = true) :
    ∃ t t', collateTable env ws o = .ok t ∧ collateTable env us o = .ok t' ∧
      markedStrings t = (markedStrings t').map (fun r => (false, some P) :: (r ++ [(false, some Q)])) := by
  obtain ⟨hvm, hsm, hrm, e1, e2⟩ := middle_ready hv hs hvu hrep hus
  obtain ⟨t, t1, k1, k2, k3⟩ := C110_opening_segmented_partial env hts ws _ hv hs hvm hsm hrep (untwinned_tail hv hs h3 hrep) P hP e1 hop (by
    rintro ⟨a, ha⟩
    refine hfirst ⟨a, ?_⟩
    intro u hu
    have : strings u ++ Q ∈ (ws.map (withoutFirst P.length)).map strings := by rw [e2]; exact List.mem_map.mpr ⟨u, hu, rfl⟩
    obtain ⟨w, hw, he⟩ := List.mem_map.mp this
    have := ha w hw
    rw [he, List.head?_append] at this
    cases hh : strings u with
    | nil =>
      have h0 : u.tokens.map Token.str = [] := hh
      exact absurd (List.map_eq_nil_iff.mp h0) (hvu.tokens u hu).1
    | cons x l =>
      rw [hh] at this
      simpa using this) o ho hf hseg
  obtain ⟨t1', t', k4, k5, k6⟩ := C110_ending_segmented_partial env hts _ us hvm hsm hvu hsu hrm (untwinned_tail hvm hsm (by simpa using h3) hrm) Q hQ e2
    hlast o ho hf hseg
  obtain rfl := Except.ok.inj (k2.symm.trans k4)
  refine ⟨t, t', k1, k5, ?_⟩
  rw [k3, k6, List.map_map]
  apply List.map_congr_left
  intro r _
  rfl

/-! ### Conditions -/

/-- C110 is false if a word of the opening comes again in the first witness: in `a x a z` and `a z` the second `a` of the first witness is aligned, so
the table is not a column `a` and the table of `x a z` and `z`. -/
theorem C110_repeated_opening : ∃ t t',
    collateTable exampleEnv [wordsWitness "A" ["a", "x", "a", "z"], wordsWitness "B" ["a", "z"]] { segmentation := false } = .ok t ∧
    collateTable exampleEnv [wordsWitness "A" ["x", "a", "z"], wordsWitness "B" ["z"]] { segmentation := false } = .ok t' ∧
    markedStrings t ≠ (markedStrings t').map (agreedCells [S "a"] ++ ·) := by
  obtain ⟨t, h1, h2⟩ := C102_two_witnesses exampleEnv kahn_spec (wordsWitness "A" ["a", "x", "a", "z"]) (wordsWitness "B" ["a", "z"])
    (valid_of_check (by decide) (by decide) (by decide) (by decide)) (by decide) { segmentation := false } ⟨rfl, rfl, rfl⟩ rfl
  obtain ⟨t', k1, k2⟩ := C102_two_witnesses exampleEnv kahn_spec (wordsWitness "A" ["x", "a", "z"]) (wordsWitness "B" ["z"])
    (valid_of_check (by decide) (by decide) (by decide) (by decide)) (by decide) { segmentation := false } ⟨rfl, rfl, rfl⟩ rfl
  refine ⟨t, t', h1, k1, ?_⟩
  rw [h2, k2]
  decide +kernel

/-- C110 is false if a later witness has equal neighbours: the table of `a b a` and `b a a` is not that of `a b` and `b a` and a column `a`. -/
theorem C110_equal_neighbours : ∃ t t',
    collateTable exampleEnv [wordsWitness "A" ["a", "b", "a"], wordsWitness "B" ["b", "a", "a"]] {} = .ok t ∧
    collateTable exampleEnv [wordsWitness "A" ["a", "b"], wordsWitness "B" ["b", "a"]] {} = .ok t' ∧
    markedStrings t ≠ (markedStrings t').map (· ++ [(false, some [S "a"])]) := by
  obtain ⟨t, t', h1, h2, h3, h4⟩ := C108_equal_neighbours
  refine ⟨t, t', h1, h3, ?_⟩
  rw [h2, h4]
  decide

/-- The hypotheses of C110 for three witnesses that begin with `in the` and end with `ran off`, and the tables with the default options. -/
example : TopoSpec exampleEnv.topo ∧
    (let ws := [wordsWitness "A" ["in", "the", "black", "cat", "ran", "off"], wordsWitness "B" ["in", "the", "white", "and", "black", "dog", "ran", "off"],
      wordsWitness "C" ["in", "the", "white", "dog", "ran", "off"]]
    let us := [wordsWitness "A" ["black", "cat"], wordsWitness "B" ["white", "and", "black", "dog"], wordsWitness "C" ["white", "dog"]]
    Valid ws ∧ Valid us ∧ (∀ w ∈ ws, w.sigil ≠ []) ∧ (∀ w ∈ us, w.sigil ≠ []) ∧ ws.length ≤ 3 ∧ (∀ w ∈ ws.tail, NoRepeats w) ∧
    ws.map strings = us.map (fun u => [S "in", S "the"] ++ strings u ++ [S "ran", S "off"]) ∧
    (∀ w ∈ ws, ∀ a ∈ [S "in", S "the"], (strings w).count a = 1) ∧
    (¬ ∃ a, ∀ u ∈ us, (strings u).head? = some a) ∧ (¬ ∃ a, ∀ u ∈ us, (strings u).getLast? = some a) ∧
    (workOf (us.map strings)).shownSegmented =
      [[(true, none), (true, none), (true, some [S "black"]), (true, some [S "cat"])],
       [(true, some [S "white"]), (true, some [S "and"]), (true, some [S "black"]), (true, some [S "dog"])],
       [(true, some [S "white"]), (true, none), (true, none), (true, some [S "dog"])]]) := by
  refine ⟨kahn_spec, valid_of_check (by decide) (by decide) (by decide) (by decide), valid_of_check (by decide) (by decide) (by decide) (by decide),
    by decide, by decide, by decide, ?_, by decide +kernel, by decide +kernel, ?_, ?_, by decide +kernel⟩
  · intro w hw
    rcases List.mem_cons.mp hw with rfl | hw
    · exact noRepeats_of_check (by decide)
    · rcases List.mem_cons.mp hw with rfl | hw
      · exact noRepeats_of_check (by decide)
      · cases hw
  · rintro ⟨a, ha⟩
    have h1 := ha (wordsWitness "A" ["black", "cat"]) (by simp)
    have h2 := ha (wordsWitness "B" ["white", "and", "black", "dog"]) (by simp)
    rw [← h2] at h1
    exact absurd h1 (by decide +kernel)
  · rintro ⟨a, ha⟩
    have h1 := ha (wordsWitness "A" ["black", "cat"]) (by simp)
    have h2 := ha (wordsWitness "B" ["white", "and", "black", "dog"]) (by simp)
    rw [← h2] at h1
    exact absurd h1 (by decide +kernel)

end CollateX
