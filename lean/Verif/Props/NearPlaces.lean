import Verif.Props.NearStill
import Verif.Props.Places
/-
C99 with near matching.
-/

namespace CollateX
open Spec

/-- A table that shows the words place by place has no empty cell. -/
theorem flushRight_of_places {t : Table} {ws : List Witness} {n : Nat} (hn : ∀ w ∈ ws, (strings w).length = n)
    (hc : t.columns.length = n) (h : showsPlaces t ws) : FlushRight t := by
  intro row hrow j hj _ hnone
  have hm : (row.header, row.cells.map (Option.map (fun ts => ts.map Token.str))) ∈
      ws.map (fun w => (w.sigil, (strings w).map (fun a => some [a]))) := by
    rw [← h]
    exact List.mem_map.mpr ⟨row, hrow, rfl⟩
  obtain ⟨w, hw, he⟩ := List.mem_map.mp hm
  have he2 := congrArg (fun q => q.2[j + 1]?) he
  simp only [List.getElem?_map] at he2
  rw [List.getElem?_eq_getElem (by rw [hn w hw, ← hc]; exact hj)] at he2
  unfold cellAt at hnone
  cases hx : row.cells[j + 1]? with
  | none => rw [hx] at he2; simp at he2
  | some c =>
    cases c with
    | none => rw [hx] at he2; simp at he2
    | some ts => rw [hx] at hnone; simp at hnone

/-- C99 with near matching: witnesses that keep their places are aligned place by place, whatever the similarity function, and near
matching changes no output. This includes a single witness and identical witnesses. -/
theorem C99_near_matching (env : Env) (hts : TopoSpec env.topo) (ws : List Witness) (hv : Valid ws) (hs : ∀ w ∈ ws, w.sigil ≠ [])
    (n : Nat) (hp : PlaceByPlace n ws) (o : Opts) (ho : NearMatching o) (hf : o.pfilter = none) :
    (∃ t, collateTable env ws o = .ok t ∧ t.columns.length = n ∧ showsPlaces t ws ∧ variantPlaces t ws) ∧
      collate env ws o = collate env ws { o with nearMatch := false } := by
  obtain ⟨t, h1, h2, h3, h4⟩ := C99_place_by_place env hts ws hv hs n hp { o with nearMatch := false }
    ⟨ho.astar, ho.detect, rfl⟩ hf ho.seg
  obtain ⟨h5, h6⟩ := C119_flush_right env hts ws hv hs o ho h1 (flushRight_of_places hp.1 h2 h3)
  exact ⟨⟨t, h5, h2, h3, h4⟩, h6⟩

/-- Two witnesses with a replaced word and a repeated one. -/
def nearPlaces : List Witness := [wordsWitness "A" ["the", "cat", "saw", "the", "dog"], wordsWitness "B" ["the", "rat", "saw", "the", "dog"]]

/-- The hypotheses are met, and near matching keeps the table. -/
example : TopoSpec nearEnv.topo ∧ Valid nearPlaces ∧ (∀ w ∈ nearPlaces, w.sigil ≠ []) ∧ PlaceByPlace 5 nearPlaces ∧
    NearMatching { segmentation := false, nearMatch := true } ∧
    (collateTable nearEnv nearPlaces { segmentation := false, nearMatch := true }).map tableSummary =
      .ok ⟨[false, true, false, false, false], [S "A", S "B"],
        [[some [S "the"], some [S "cat"], some [S "saw"], some [S "the"], some [S "dog"]],
          [some [S "the"], some [S "rat"], some [S "saw"], some [S "the"], some [S "dog"]]]⟩ := by
  refine ⟨kahn_spec, valid_of_check (by decide) (by decide) (by decide) (by decide), by decide, ⟨by decide, ?_⟩,
    ⟨rfl, rfl, rfl, rfl⟩, by decide +kernel⟩
  intro k w hw i a ha
  have key : (List.range 2).all (fun k => nearPlaces[k]?.toList.all (fun w => (List.range 5).all (fun i => (strings w)[i]?.toList.all (fun a =>
      (nearPlaces.take k).any (fun w' => decide ((strings w')[i]? = some a)) || (nearPlaces.take k).all (fun w' => decide (a ∉ strings w')))))) = true := by
    decide
  simp only [List.all_eq_true, List.any_eq_true, Bool.or_eq_true, decide_eq_true_eq, List.mem_range] at key
  have hk := (List.getElem?_eq_some_iff.mp hw).1
  have hi := (List.getElem?_eq_some_iff.mp ha).1
  have hl : ∀ w ∈ nearPlaces, (strings w).length = 5 := by decide
  rw [hl w (List.mem_of_getElem? hw)] at hi
  exact key k hk w (by rw [hw]; simp) i hi a (by rw [ha]; simp)

end CollateX
