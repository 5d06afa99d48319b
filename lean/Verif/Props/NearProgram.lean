import Verif.Proofs.NearProgram
import Verif.Proofs.Untwinned
import Verif.Props.NearCells
/-
Property C105: near matching of two witnesses is done as by a short program on lists of words.
-/

namespace CollateX
open Spec

/-- C105: with near matching, the rows of the table of two witnesses, with the marks of the columns, are those of the short program. -/
theorem C105_near_program (env : Env) (hts : TopoSpec env.topo) (ws : List Witness) (hv : Valid ws) (hs : ∀ w ∈ ws, w.sigil ≠ [])
    (h2 : ws.length = 2) (o : Opts) (ho : NearMatching o) (hf : o.pfilter = none) :
    ∃ t, collateTable env ws o = .ok t ∧ markedStrings t = (workOf (ws.map strings)).nearShown env.ratio := by
  obtain ⟨g, r, ps, rk₀, ord₀, m₀, W, h0, C₀, hW, T⟩ := worked_core env hts ws hv { o with nearMatch := false } ⟨ho.astar, ho.detect, rfl⟩ hf ho.seg
  obtain ⟨rk, ord, m, B, C, h1⟩ := near_base_of env hts hv ho h0 C₀
  have hne : indexed 0 ws ≠ [] := by
    intro h0
    have := congrArg List.length h0
    rw [indexed_length] at this
    exact hv.ne (List.length_eq_zero_iff.mp this)
  have hps := C.ne hne
  have hlen2 : ps.length = 2 := by rw [C.length, indexed_length, h2]
  have hA : AtMostTwo ps := atMostTwo_of_length (by omega)
  obtain ⟨n, r', f, h3, R, hinc, hcrit, hge, hnear, hstay, hplaced⟩ := performNearMatch_two B C.ginv hps hA env.ratio
  rw [h3] at h1
  have hend := (C.end_rank hne).1
  have hb := C.ginv.rank_bounds hps (h := f) hinc
  have hfend : f endV = rk endV := hcrit _ (B.mem.mpr B.endv) .last
  obtain ⟨L, hby, k1, k2, k3⟩ := near_columns B C hne R hcrit (by
    intro v hv h4 h5
    have := (hb v (B.mem.mp hv)).1 h4
    have := (hb v (B.mem.mp hv)).2 h5
    omega)
  have hwidth := T.nodes.width C.ginv hps C.rank
  have hWu : W = workOf (ws.map strings) := hW.unique (untwinned_two (by rw [List.length_map]; omega))
  refine ⟨mkTable (indexed 0 ws) g r', ?_, ?_⟩
  · unfold collateTable
    rw [h1]
    show Except.ok _ = _
    rw [mkTable_withNear]
  · rw [← hWu]
    have hsh : ∀ v, (∀ p ∈ ps, v ∈ p.inner) → f v = rk v := by
      intro v hv
      obtain ⟨p, q, rfl⟩ : ∃ p q, ps = [p, q] := List.length_eq_two.mp hlen2
      have hvp := hv p (by simp)
      have hvq := hv q (by simp)
      obtain ⟨s, hs, rfl⟩ := List.mem_map.mp hvp
      have hvo := B.mem.mpr (C.ginv.segs_in p (by simp) s hs).1
      apply hcrit _ hvo
      by_contra hc
      have := one_path B C.ginv hps hA hvo hc (p := p) (q := q) (by simp) (by simp) (by simp [WPath.path, hvp]) (by simp [WPath.path, hvq])
      subst this
      have := C.ginv.sig_nd
      simp at this
    have hmain := shown_byRank (W := W) (f := f) (ws := indexed 0 ws) C.ginv (by rw [C.length]) C.sigils (C.sigil_ne (indexed_sigil_ne hs)) hps T.nodes hby
      hinc (N' := W.width) (by omega) (by omega) (fun j hj => k3 j (by omega)) (fun n => [(W.words[n]?).getD []])
      (by
        intro p hp n ts h
        obtain ⟨t, ht⟩ := C.single rfl p hp _ h
        simp only at ht
        subst ht
        have := T.words p hp (n + 2) t h
        simp only [Nat.add_sub_cancel] at this
        simp [this])
      W.variantAt
      (by
        intro x hx
        have h4 : W.variantAt (x + 1) = false ↔ ∃ n < W.words.length, ∀ r ∈ W.rows, W.nodeAt r (x + 1) = some n := by
          unfold Work.variantAt
          simp [List.any_eq_true, List.all_eq_true]
        rw [h4]
        constructor
        · rintro ⟨n, hn, hr⟩
          have hall : ∀ p ∈ ps, n + 2 ∈ p.inner ∧ rk (n + 2) = x + 1 := by
            intro p hp
            obtain ⟨a, ha, he⟩ := T.nodes.row_of hp
            obtain ⟨h5, h6⟩ := (C.nodeAt_iff T.nodes hne hp he).mp (hr a ha)
            exact ⟨by rw [he]; exact List.mem_map.mpr ⟨n, h5, rfl⟩, h6⟩
          refine ⟨n + 2, fun p hp => ⟨(hall p hp).1, ?_⟩⟩
          rw [hsh _ (fun p hp => (hall p hp).1)]
          exact (hall p hp).2
        · rintro ⟨v, hv⟩
          have hrk := hsh v (fun p hp => (hv p hp).1)
          obtain ⟨p0, hp0⟩ := List.exists_mem_of_ne_nil _ hps
          obtain ⟨s, hs, rfl⟩ := List.mem_map.mp (hv p0 hp0).1
          have hin := C.ginv.segs_in p0 hp0 s hs
          obtain ⟨n, hn, hnl⟩ := T.nodes.node hin.1 hin.2.1 hin.2.2.1
          rw [hn] at hv hrk
          refine ⟨n, hnl, fun a ha => ?_⟩
          obtain ⟨p, hp, he⟩ := T.nodes.path_of ha
          obtain ⟨h5, h6⟩ := hv p hp
          rw [he] at h5
          obtain ⟨n', hn', he'⟩ := List.mem_map.mp h5
          obtain rfl : n' = n := by simpa using he'
          exact (C.nodeAt_iff T.nodes hne hp he).mpr ⟨hn', by omega⟩)
    rw [hmain]
    obtain ⟨p, q, hpq⟩ : ∃ p q, ps = [p, q] := List.length_eq_two.mp hlen2
    have hrows := T.nodes.rows
    rw [hpq] at hrows
    obtain ⟨a, b, hab⟩ : ∃ a b, W.rows = [a, b] := List.length_eq_two.mp (by
      have := congrArg List.length hrows
      simpa using this.symm)
    rw [hab] at hrows
    simp only [List.map_cons, List.map_nil, List.cons.injEq, and_true] at hrows
    have hpqne : p ≠ q := by
      rintro rfl
      have := C.ginv.sig_nd
      rw [hpq] at this
      simp at this
    have hpm : p ∈ ps := by rw [hpq]; simp
    have hqm : q ∈ ps := by rw [hpq]; simp
    have m1 := moved_eq B C hne T.nodes T.words hA hinc hcrit hnear hstay hplaced hpm hqm hpqne hrows.1 hrows.2
    have m2 := moved_eq B C hne T.nodes T.words hA hinc hcrit hnear hstay hplaced hqm hpm hpqne.symm hrows.2 hrows.1
    have hrowEq : ∀ (c d : List Nat) (P : WPath), P ∈ ps → P.inner = c.map (· + 2) → W.moved env.ratio d c = c.map (fun n => f (n + 2)) →
        (List.range W.width).map (fun x => (W.variantAt (x + 1), (c.find? (fun n => f (n + 2) = x + 1)).map (fun n => [(W.words[n]?).getD []]))) =
        W.nearRow env.ratio c d := by
      intro c d P hP hin hmv
      unfold Work.nearRow
      rw [hmv]
      apply List.map_congr_left
      intro x _
      rw [find_zip_map (fun n => f (n + 2)) (fun y => decide (y = x + 1)) c]
      congr 1
      cases hfd : c.find? (fun n => decide (f (n + 2) = x + 1)) with
      | none => rfl
      | some k =>
        have hm : k + 2 ∈ P.inner := by
          rw [hin]
          exact List.mem_map.mpr ⟨k, List.mem_of_find?_eq_some hfd, rfl⟩
        obtain ⟨s, hs, hse⟩ := List.mem_map.mp hm
        have h6 := T.nodes.bound _ (C.ginv.segs_in P hP s hs).1
        rw [hse] at h6
        simp only [Option.map_some, Option.bind_some]
        rw [List.getElem?_eq_getElem (by omega)]
        rfl
    unfold Work.nearShown
    rw [hab]
    simp only [List.map_cons, List.map_nil]
    rw [hrowEq a b p hpm hrows.1 m1, hrowEq b a q hqm hrows.2 m2]

/-- C105: what near matching of two witnesses gives depends on the words alone, not on the sigla, the topological sort, the other properties of
the tokens or the layout. -/
theorem C105_words_only (env env' : Env) (hts : TopoSpec env.topo) (hts' : TopoSpec env'.topo) (hr : env.ratio = env'.ratio)
    (ws ws' : List Witness) (hv : Valid ws) (hv' : Valid ws') (hs : ∀ w ∈ ws, w.sigil ≠ []) (hs' : ∀ w ∈ ws', w.sigil ≠ []) (h2 : ws.length = 2)
    (o o' : Opts) (ho : NearMatching o) (ho' : NearMatching o') (hf : o.pfilter = none) (hf' : o'.pfilter = none)
    (hw : ws.map strings = ws'.map strings) :
    ∃ t t', collateTable env ws o = .ok t ∧ collateTable env' ws' o' = .ok t' ∧ markedStrings t = markedStrings t' := by
  obtain ⟨t, h3, h4⟩ := C105_near_program env hts ws hv hs h2 o ho hf
  have hl : ws.length = ws'.length := by simpa using congrArg List.length hw
  obtain ⟨t', h5, h6⟩ := C105_near_program env' hts' ws' hv' hs' (by omega) o' ho' hf'
  exact ⟨t, t', h3, h5, by rw [h4, h6, hw, hr]⟩

/-- The hypotheses are met, and the short program moves `this` beside `that`. -/
example : TopoSpec nearEnv.topo ∧ Valid dogWitnesses ∧ dogWitnesses.length = 2 ∧ NearMatching { segmentation := false, nearMatch := true } ∧
    workOf (dogWitnesses.map strings) = ⟨[S "over", S "this", S "dog", S "there", S "that"], [[0, 1, 2], [0, 3, 4, 2]]⟩ ∧
    (workOf (dogWitnesses.map strings)).nearShown nearEnv.ratio =
      [[(false, some [S "over"]), (true, none), (true, some [S "this"]), (false, some [S "dog"])],
       [(false, some [S "over"]), (true, some [S "there"]), (true, some [S "that"]), (false, some [S "dog"])]] := by
  exact ⟨kahn_spec, valid_of_check (by decide) (by decide) (by decide) (by decide), rfl, ⟨rfl, rfl, rfl, rfl⟩, by decide +kernel, by decide +kernel⟩

/-- Of two equally similar words the first is taken. -/
example : (workOf [[S "a", S "xy", S "b"], [S "a", S "xp", S "xq", S "b"]]).nearShown nearEnv.ratio =
      [[(false, some [S "a"]), (true, some [S "xy"]), (true, none), (false, some [S "b"])],
       [(false, some [S "a"]), (true, some [S "xp"]), (true, some [S "xq"]), (false, some [S "b"])]] := by decide +kernel

end CollateX
