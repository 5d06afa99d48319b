import Verif.Proofs.Copies
import Verif.Props.Nested
/-
Property C64: a witness whose tokens all stand, in the same order, in one earlier witness adds nothing to the table.
-/

namespace CollateX
open Spec

/-- The strings of witness `k` stand, in this order, in a witness before it. -/
def Spec.Repeats (ws : List Witness) (k : Nat) : Prop :=
  ∃ (j : Nat) (w w' : Witness), j < k ∧ ws[k]? = some w ∧ ws[j]? = some w' ∧ (strings w).Sublist (strings w')

/-- Wherever row `k` has a cell, a row above it has the same strings in the same column. -/
def Spec.NothingNew (t : Table) (k : Nat) : Prop :=
  ∀ (row : Row), t.rows[k]? = some row → ∀ (c : Nat) (a : List Token), row.cells[c]? = some (some a) →
    ∃ (i : Nat) (row' : Row) (b : List Token), i < k ∧ t.rows[i]? = some row' ∧ row'.cells[c]? = some (some b) ∧
      a.map Token.str = b.map Token.str

/-- The vertices of the paths at certain positions are vertices of paths before them. -/
def Shared (D : Nat → Prop) (ps : List WPath) : Prop :=
  ∀ (k : Nat) (p : WPath), D k → ps[k]? = some p → ∀ v ∈ p.inner, ∃ (j : Nat) (q : WPath), j < k ∧ ps[j]? = some q ∧ v ∈ q.inner

theorem shared_join (cc : CharClass) (D : Nat → Prop) : StepInv cc (fun _ ps => Shared D ps) := by
  intro g ps v c x hg J hvs _ _ h k p hk hp u hu
  rw [List.getElem?_map] at hp
  obtain ⟨p', hp', rfl⟩ := Option.map_eq_some_iff.mp hp
  obtain ⟨h1, h2⟩ := (J.mem_inner hg hvs (List.mem_of_getElem? hp')).mp hu
  obtain ⟨j, q, hj, hq, hm⟩ := h k p' hk hp' u h1
  exact ⟨j, _, hj, by rw [List.getElem?_map, hq]; rfl, (J.mem_inner hg hvs (List.mem_of_getElem? hq)).mpr ⟨hm, h2⟩⟩

/-- From the paths to the table. -/
theorem nothingNew_of_shared {cc : CharClass} {ws : List Witness} {seg : Bool} {g : VGraph} {ps : List WPath} {rk : Ranking}
    {rkf : VId → Nat} {ord : List VId} {m : Nat} {D : Nat → Prop} (hsh : Shared D ps) (C : Collated cc ws seg g ps rk rkf ord m)
    (hs : ∀ w ∈ ws, w.sigil ≠ []) {k : Nat} (hk : D k) : NothingNew (mkTable ws g rk) k := by
  intro row hrow c a ha
  rw [mkTable_rows, List.getElem?_map] at hrow
  obtain ⟨w, hw, rfl⟩ := Option.map_eq_some_iff.mp hrow
  simp only [List.getElem?_map] at ha
  obtain ⟨col, hcol, hd⟩ := Option.map_eq_some_iff.mp ha
  obtain ⟨p, hp, hpw, _⟩ := C.at hw
  have hpm := List.mem_of_getElem? hp
  obtain ⟨r, hr, hcolr⟩ := C.col hcol
  rw [← hpw] at hd
  obtain ⟨v, hv, hva⟩ := C.byRank.col_entry C.ginv (C.sigil_ne hs) hr hcolr hpm hd
  obtain ⟨j, q, hj, hq, hvq⟩ := hsh k p hk hp v (List.mem_map.mpr ⟨_, hva, rfl⟩)
  have hqm := List.mem_of_getElem? hq
  obtain ⟨⟨v', b⟩, hvb, rfl⟩ := List.mem_map.mp hvq
  have hjl : j < ws.length := by
    rw [← C.length]; exact (List.getElem?_eq_some_iff.mp hq).1
  obtain ⟨w', hw'⟩ : ∃ w', ws[j]? = some w' := ⟨_, List.getElem?_eq_getElem hjl⟩
  obtain ⟨q', hq', hqw, _⟩ := C.at hw'
  rw [hq] at hq'
  obtain rfl := Option.some.inj hq'
  have hcell := (C.byRank.cell C.ginv hqm (C.sigil_ne hs _ hqm) (C.inner_increasing hqm) ws.length hr b).mpr
    ⟨_, hvb, ((C.byRank.mem r hr v').mp hv).2, rfl⟩
  rw [hcolr] at hcell
  refine ⟨j, _, b, hj, by rw [mkTable_rows, List.getElem?_map, hw']; rfl, ?_, C.uniform p hpm q hqm v' a b hva hvb⟩
  simp only
  rw [List.getElem?_map, hcol, Option.map_some, ← hqw]
  exact congrArg some hcell

/-- C64. A witness whose strings are a subsequence of those of one earlier witness adds nothing to the table: wherever it has a
cell, a row above has the same strings. This holds with and without segmentation, whatever the other witnesses are. -/
theorem C64_nothing_new (env : Env) (hts : TopoSpec env.topo) (ws : List Witness) (hv : Valid ws) (hs : ∀ w ∈ ws, w.sigil ≠ [])
    (o : Opts) (ho : ExactMatching o) (hf : o.pfilter = none) :
    ∃ t, collateTable env ws o = .ok t ∧ t.rows.map Row.header = ws.map Witness.sigil ∧ ∀ k, Repeats ws k → NothingNew t k := by
  obtain ⟨g, ps, rk, rkf, ord, m, h1, C, hsh⟩ := collateRanked_inv env hts hv o ho.astar ho.detect ho.near
    (Q := fun _ _ ps => Shared (Repeats ws) ps) (R := fun _ ps => Shared (Repeats ws) ps)
    (fun ti hti L B => by
      refine ⟨?_, ?_, fun _ _ _ _ h => h⟩
      · rw [hf]
        rintro s s' ps w P rkf o m r cube cells al hs hne hw hs' hst h k p hk hp v hv
        have hkl := (List.getElem?_eq_some_iff.mp hp).1
        simp only [List.length_append, List.length_cons, List.length_nil] at hkl
        by_cases hkp : k < ps.length
        · rw [List.getElem?_append_left hkp] at hp
          obtain ⟨j, q, hj, hq, hm⟩ := h k p hk hp v hv
          exact ⟨j, q, hj, by rw [List.getElem?_append_left (by omega)]; exact hq, hm⟩
        · have : k = ps.length := by omega
          subst this
          rw [List.getElem?_append_right (Nat.le_refl _), Nat.sub_self, List.getElem?_cons_zero] at hp
          obtain rfl := Option.some.inj hp
          obtain ⟨j, a, b, hj, e1, e3, hsub⟩ := hk
          obtain ⟨x0, hx0⟩ : ∃ x0, ti.ws[j]? = some x0 :=
            ⟨_, List.getElem?_eq_getElem (by have := (List.getElem?_eq_some_iff.mp hw).1; omega)⟩
          obtain ⟨p, hp⟩ : ∃ p, ps[j]? = some p := ⟨_, List.getElem?_eq_getElem hj⟩
          have hall := hst.aligned_of_sublist L B hs hne hw hx0 hp (by
            rw [hti] at hw hx0
            obtain ⟨a', e1', _, e2⟩ := indexed_strs _ hw
            obtain ⟨b', e3', _, e4⟩ := indexed_strs _ hx0
            rw [e1] at e1'
            rw [e3] at e3'
            obtain rfl := Option.some.inj e1'
            obtain rfl := Option.some.inj e3'
            rw [e2, e4]
            exact hsub)
          obtain ⟨q, hq, hvq⟩ := hst.no_new hs hall v hv
          obtain ⟨i, hi⟩ := List.getElem?_of_mem hq
          have hil := (List.getElem?_eq_some_iff.mp hi).1
          exact ⟨i, q, hil, by rw [List.getElem?_append_left hil]; exact hi, hvq⟩
      · intro w s _ _ k p hk hp
        have := (List.getElem?_eq_some_iff.mp hp).1
        obtain ⟨j, _, _, hj, _⟩ := hk
        simp only [List.length_cons, List.length_nil] at this
        omega) (fun _ => shared_join env.cc (Repeats ws))
  refine ⟨mkTable (indexed 0 ws) g rk, ?_, ?_, fun k hk => nothingNew_of_shared hsh C (indexed_sigil_ne hs) hk⟩
  · unfold collateTable; rw [h1]; rfl
  · rw [mkTable_rows, List.map_map]
    exact indexed_sigla 0 _

/-- A witness, one with repeated tokens, and a copy of the first. -/
def copiedWitnesses : List Witness :=
  [wordsWitness "A" ["a"], wordsWitness "B" ["a", "a", "b", "a"], wordsWitness "C" ["a"]]

/-- A copy need not stand below its original: the third witness is a copy of the first, and is aligned with another token of the
second one. -/
theorem C64_copy_elsewhere : Valid copiedWitnesses ∧ Repeats copiedWitnesses 2 ∧
    (collateTable exampleEnv copiedWitnesses { segmentation := false }).map tableSummary =
      .ok ⟨[true, true, true, true], [S "A", S "B", S "C"], [[none, some [S "a"], none, none],
        [some [S "a"], some [S "a"], some [S "b"], some [S "a"]], [none, none, none, some [S "a"]]]⟩ :=
  ⟨valid_of_check (by decide) (by decide) (by decide) (by decide), ⟨0, _, _, by decide, rfl, rfl, by decide⟩, by decide +kernel⟩

/-! ### Examples -/

/-- Two different witnesses, one with tokens of the second, one with tokens of the first. -/
def excerptWitnesses : List Witness :=
  [wordsWitness "A" ["a", "b", "c", "d"], wordsWitness "B" ["a", "x", "c", "y", "d"], wordsWitness "C" ["x", "y"],
   wordsWitness "D" ["a", "b"]]

/-- The hypotheses of C64 are met, also by a witness that repeats the second one. -/
example : TopoSpec exampleEnv.topo ∧ Valid excerptWitnesses ∧ Repeats excerptWitnesses 2 ∧ Repeats excerptWitnesses 3 ∧
    (collateTable exampleEnv excerptWitnesses { segmentation := true }).map tableSummary =
    .ok ⟨[true, true, true, true, true], [S "A", S "B", S "C", S "D"],
      [[some [S "a"], some [S "b"], some [S "c"], none, some [S "d"]],
       [some [S "a"], some [S "x"], some [S "c"], some [S "y"], some [S "d"]],
       [none, some [S "x"], none, some [S "y"], none],
       [some [S "a"], some [S "b"], none, none, none]]⟩ :=
  ⟨kahn_spec, valid_of_check (by decide) (by decide) (by decide) (by decide), ⟨1, _, _, by decide, rfl, rfl, by decide⟩,
    ⟨0, _, _, by decide, rfl, rfl, by decide⟩, by decide +kernel⟩

end CollateX
