import Verif.Proofs.NearStill
import Verif.Spec.NearStill
import Verif.Props.Near
import Verif.Props.Placing
import Verif.Props.Table
/-
C119: near matching leaves alone what cannot move.
-/

namespace CollateX
open Spec

theorem indexed_ne {ws : List Witness} (hv : Valid ws) : indexed 0 ws ≠ [] := by
  intro h0
  have := congrArg List.length h0
  rw [indexed_length] at this
  exact hv.ne (List.length_eq_zero_iff.mp this)

/-- C119, the exact condition: with any number of witnesses and any similarity function, near matching changes graph or ranking
if and only if some word is followed by something but not, in any witness, by a word in the next column. -/
theorem C119_iff (env : Env) (hts : TopoSpec env.topo) (ws : List Witness) (hv : Valid ws) (o : Opts) (ho : NearMatching o)
    {ws' : Collation} {g : VGraph} {rk : Ranking} (h : collateRanked env ws { o with nearMatch := false } = .ok (ws', g, rk)) :
    collateRanked env ws o = .ok (ws', g, rk) ↔ ∀ u, ¬ Movable g rk u := by
  obtain ⟨g0, ps, r, f, ord, m, B, C, h0, h1⟩ := near_base env hts hv ho
  rw [h] at h0
  obtain ⟨e1, e2⟩ := Prod.mk.inj (Except.ok.inj h0)
  obtain ⟨e2, e3⟩ := Prod.mk.inj e2
  subst e1; subst e2; subst e3
  have R := B.rank.ranked B.nd
  have hf : ∀ v ∈ ord, dget rk.byVertex v = some (f v) := fun v hv => by rw [R.bv]; exact dget_map_self f ord v hv
  constructor
  · rintro h2 u ⟨⟨v, huv⟩, a, ha, hno⟩
    obtain ⟨m1, m2⟩ := B.ends _ huv
    have hlt : f u < f v := C.lt huv
    have ha' : a = f u := by
      rw [hf u m1] at ha
      exact (Option.some.inj ha).symm
    subst ha'
    have hall : ∀ x, (u, x) ∈ g.pairs → f x ≠ f u + 1 := fun x hx hfx => hno x hx (by rw [hf x (B.ends _ hx).2, hfx])
    obtain ⟨e, he, hp⟩ := List.mem_map.mp huv
    obtain ⟨hs, ht⟩ := Prod.mk.inj hp
    obtain ⟨s, h3, h4⟩ := performNearMatch_moves B env.ratio he
      (by rw [hs, ht]; have := hall v huv; omega) (by rw [hs]; exact hall)
    rw [h1, h3] at h2
    have := congrArg (fun q : Collation × VGraph × Ranking => q.2.1.near) (Except.ok.inj h2)
    simp only at this
    exact h4 (this.trans B.nil)
  · intro hno
    rw [h1, performNearMatch_still B env.ratio]
    · rfl
    · intro e he
      by_contra hc
      rw [not_or] at hc
      have hp := mem_pairs_of_edge he
      refine hno e.src ⟨⟨e.tgt, hp⟩, f e.src, hf _ (B.ends _ hp).1, ?_⟩
      intro x hx hfx
      rw [hf x (B.ends _ hx).2] at hfx
      exact hc.2 ⟨x, hx, Option.some.inj hfx⟩

/-- C119, seen in the table: if without near matching no row has an empty cell directly after a filled one, then with near matching
every output is the same. -/
theorem C119_flush_right (env : Env) (hts : TopoSpec env.topo) (ws : List Witness) (hv : Valid ws) (hs : ∀ w ∈ ws, w.sigil ≠ [])
    (o : Opts) (ho : NearMatching o) {t : Table} (ht : collateTable env ws { o with nearMatch := false } = .ok t) (hr : FlushRight t) :
    collateTable env ws o = .ok t ∧ collate env ws o = collate env ws { o with nearMatch := false } := by
  obtain ⟨g, ps, r, f, ord, m, B, C, h0, h1⟩ := near_base env hts hv ho
  have hne := indexed_ne hv
  have R := B.rank.ranked B.nd
  have hf : ∀ v ∈ ord, dget r.byVertex v = some (f v) := fun v hv => by rw [R.bv]; exact dget_map_self f ord v hv
  have hts' : t = mkTable (indexed 0 ws) g r := by
    unfold collateTable at ht
    rw [h0] at ht
    exact (Except.ok.inj ht).symm
  subst hts'
  have hs' : ∀ w ∈ indexed 0 ws, w.sigil ≠ [] := by
    intro w hw
    have : w.sigil ∈ (indexed 0 ws).map Witness.sigil := List.mem_map.mpr ⟨w, hw, rfl⟩
    rw [indexed_sigla] at this
    obtain ⟨x, hx, hxe⟩ := List.mem_map.mp this
    rw [← hxe]
    exact hs x hx
  obtain ⟨hm, hend⟩ := C.end_rank hne
  have hb := C.ginv.rank_bounds (C.ne hne) (h := f) (fun p hp => C.lt (u := p.1) (v := p.2) hp)
  obtain ⟨hlen, _⟩ := C.columns_at hne
  have hs0 := (C.start_rank hne C.ginv.start_mem).mpr rfl
  have key : collateRanked env ws o = .ok (indexed 0 ws, g, r) := by
    rw [C119_iff env hts ws hv o ho h0]
    rintro u ⟨⟨v, huv⟩, a, ha, hno⟩
    have hu := (B.ends _ huv).1
    have hv' := (B.ends _ huv).2
    have hlt : f u < f v := C.lt huv
    have hve : f v ≤ f endV := by have := R.lt v hv'; omega
    rw [hf u hu] at ha
    obtain rfl := Option.some.inj ha
    have hall : ∀ x, (u, x) ∈ g.pairs → f x ≠ f u + 1 := fun x hx hfx => hno x hx (by rw [hf x (B.ends _ hx).2, hfx])
    by_cases hus : u = startV
    · subst hus
      obtain ⟨c, hc, _, hc1⟩ := B.level 1 (by omega)
      obtain ⟨x, hx, hx1⟩ := B.rank.isRank.pred (B.mem.mp hc) (by omega)
      have hx0 : f x = 0 := by omega
      have := (C.start_rank hne (B.mem.mp (B.ends _ hx).1)).mp hx0
      subst this
      exact hall c hx (by omega)
    · have hue : u ≠ endV := by rintro rfl; omega
      obtain ⟨p, hp, hup⟩ := C.ginv.cover u (B.mem.mp hu) hus hue
      obtain ⟨k, hk⟩ := List.getElem?_of_mem hp
      have hpos : 0 < f u := by
        rcases Nat.eq_zero_or_pos (f u) with h | h
        · exact absurd ((C.start_rank hne (B.mem.mp hu)).mp h) hus
        · exact h
      have hk' : k < (mkTable (indexed 0 ws) g r).rows.length := by
        rw [mkTable_rows, List.length_map, ← C.length]
        exact (List.getElem?_eq_some_iff.mp hk).1
      have hrow := List.getElem?_eq_getElem hk'
      have hrm := List.mem_of_getElem? hrow
      have hnv := hall v huv
      obtain ⟨⟨u', tsu⟩, hseg, heq⟩ := List.mem_map.mp hup
      simp only at heq
      subst heq
      obtain ⟨tk, htk⟩ := C.single rfl p hp _ hseg
      simp only at htk
      subst htk
      have hcell := (C.cellAt_iff hs' hne hrow hk (j := f u' - 1) (by omega) [tk.str]).mpr ⟨u', tk, hseg, by omega, rfl⟩
      have hnext := hr _ hrm (f u' - 1) (by omega) (by rw [hcell]; simp)
      obtain ⟨l, hl⟩ := Option.ne_none_iff_exists'.mp hnext
      obtain ⟨x, tk', hx, hxr, _⟩ := (C.cellAt_iff hs' hne hrow hk (j := f u' - 1 + 1) (by omega) l).mp hl
      obtain ⟨y, hy⟩ := consec_after hup
      have hxp : x ∈ p.path := by
        unfold WPath.path
        have : x ∈ p.inner := List.mem_map.mpr ⟨_, hx, rfl⟩
        simp [this]
      have hyp : (u', y) ∈ g.pairs := (C.ginv.edges_iff u' y).mpr ⟨p, hp, hy⟩
      have hlt' : f u' < f y := C.lt hyp
      rcases consec_next (path_inc B C.ginv hp) hy hxp (by omega) with rfl | h
      · exact hall _ hyp (by omega)
      · omega
  constructor
  · unfold collateTable
    rw [key]
    rfl
  · unfold collate
    rw [key, h0]
    rfl

/-- C119: under this condition near matching is lossless with any number of witnesses (compare C34, which is false in general from
three witnesses on). -/
theorem C119_lossless (env : Env) (hts : TopoSpec env.topo) (ws : List Witness) (hv : Valid ws) (hs : ∀ w ∈ ws, w.sigil ≠ [])
    (o : Opts) (ho : NearMatching o) {t : Table} (ht : collateTable env ws { o with nearMatch := false } = .ok t) (hr : FlushRight t) :
    collateTable env ws o = .ok t ∧ ∀ (k : Nat) (w : Witness) (row : Row), ws[k]? = some w → t.rows[k]? = some row →
      List.Forall₂ SameToken w.tokens (row.cells.filterMap id).flatten :=
  ⟨(C119_flush_right env hts ws hv hs o ho ht hr).1, fun k w row hw hrow =>
    C25_table_lossless env hts ws hv { o with nearMatch := false } ⟨ho.astar, ho.detect, rfl⟩ t ht k w row hw
      (hs w (List.mem_of_getElem? hw)) hrow⟩

/-! ### Examples -/

/-- Three witnesses whose table has empty cells only at the front. -/
def flushWitnesses : List Witness :=
  [wordsWitness "A" ["the", "cat", "sat"], wordsWitness "B" ["cat", "sat"], wordsWitness "C" ["a", "cat", "mat"]]

/-- `FlushRight`, computed. -/
def flushRightB (t : Table) : Bool :=
  t.rows.all (fun row => (List.range (t.columns.length - 1)).all (fun j => (cellAt row j).isNone || (cellAt row (j + 1)).isSome))

theorem flushRight_of {t : Table} (h : flushRightB t = true) : FlushRight t := by
  intro row hr j hj h1 h2
  have := List.all_eq_true.mp (List.all_eq_true.mp h row hr) j (List.mem_range.mpr (by omega))
  rw [h2] at this
  cases hc : cellAt row j with
  | none => exact h1 hc
  | some l => rw [hc] at this; cases this

/-- The hypotheses of the table forms are met by a table with an empty cell. -/
example : TopoSpec nearEnv.topo ∧ Valid flushWitnesses ∧ (∀ w ∈ flushWitnesses, w.sigil ≠ []) ∧
    NearMatching { segmentation := false, nearMatch := true } ∧
    ∃ t, collateTable nearEnv flushWitnesses { segmentation := false } = .ok t ∧ FlushRight t ∧
      t.rows.map (fun r => (List.range 3).map (cellAt r)) =
        [[some [S "the"], some [S "cat"], some [S "sat"]], [none, some [S "cat"], some [S "sat"]],
         [some [S "a"], some [S "cat"], some [S "mat"]]] := by
  refine ⟨kahn_spec, valid_of_check (by decide) (by decide) (by decide) (by decide), by decide, ⟨rfl, rfl, rfl, rfl⟩, ?_⟩
  have h1 : (collateTable nearEnv flushWitnesses { segmentation := false }).map flushRightB = .ok true := by decide +kernel
  have h2 : (collateTable nearEnv flushWitnesses { segmentation := false }).map
      (fun t => t.rows.map (fun r => (List.range 3).map (cellAt r))) =
      .ok [[some [S "the"], some [S "cat"], some [S "sat"]], [none, some [S "cat"], some [S "sat"]],
         [some [S "a"], some [S "cat"], some [S "mat"]]] := by
    decide +kernel
  cases hr : collateTable nearEnv flushWitnesses { segmentation := false } with
  | error e => rw [hr] at h1; cases h1
  | ok t =>
    rw [hr] at h1 h2
    exact ⟨t, rfl, flushRight_of (Except.ok.inj h1), Except.ok.inj h2⟩

/-- In the graph of `dogWitnesses` the vertex of `this` can move: the other side of the condition. -/
example : ∃ ws' g rk, collateRanked nearEnv dogWitnesses { segmentation := false } = .ok (ws', g, rk) ∧ Movable g rk 3 := by
  have h : (collateRanked nearEnv dogWitnesses { segmentation := false }).map (fun r => (r.2.1.pairs, r.2.2.byVertex)) =
      .ok ([(0, 2), (2, 3), (3, 4), (4, 1), (2, 5), (5, 6), (6, 4)], [(0, 0), (2, 1), (3, 2), (5, 2), (6, 3), (4, 4), (1, 5)]) := by
    decide +kernel
  cases hr : collateRanked nearEnv dogWitnesses { segmentation := false } with
  | error e => rw [hr] at h; cases h
  | ok q =>
    obtain ⟨ws', g, rk⟩ := q
    rw [hr] at h
    obtain ⟨h1, h2⟩ := Prod.mk.inj (Except.ok.inj h)
    simp only at h1 h2
    refine ⟨ws', g, rk, rfl, ⟨4, by rw [h1]; decide⟩, 2, by rw [h2]; rfl, ?_⟩
    intro v hv
    rw [h1] at hv
    rw [h2]
    have : v = 4 := by revert hv; simp
    subst this
    decide

end CollateX
