import Verif.Spec.Collation
import Verif.Proofs.CollateOK
/-
Facts about the collated graph in terms of the specification.
-/

namespace CollateX
open Spec

/-- The result of a successful collation. -/
theorem collated_of (env : Env) (hts : TopoSpec env.topo) {ws ws' : List Witness} (hv : Valid ws) {o : Opts}
    (ho : ExactMatching o) {g : VGraph} {rk : Ranking} (h : collateRanked env ws o = .ok (ws', g, rk)) :
    ws' = indexed 0 ws ∧ ∃ ps rkf ord m, Collated env.cc ws' o.segmentation g ps rk rkf ord m := by
  obtain ⟨g', ps, rk', rkf, ord, m, h1, h2⟩ := collateRanked_ok env hts hv o ho.astar ho.detect ho.near
  rw [h1] at h
  injection h with h
  injection h with h3 h
  injection h with h4 h5
  subst h3; subst h4; subst h5
  exact ⟨rfl, ps, rkf, ord, m, h2⟩

theorem indexed_sigla (pos : Nat) (ws : List Witness) : (indexed pos ws).map Witness.sigil = ws.map Witness.sigil := by
  induction ws generalizing pos with
  | nil => rfl
  | cons w ws ih => simp [indexed, ih]

section
variable {cc : CharClass} {ws : List Witness} {seg : Bool} {g : VGraph} {ps : List WPath} {rk : Ranking} {rkf : VId → Nat}
  {ord : List VId} {m : Nat}

theorem Collated.length (C : Collated cc ws seg g ps rk rkf ord m) : ps.length = ws.length := by
  have := congrArg List.length C.readings
  simpa [CollateX.readings] using this

theorem Collated.at (C : Collated cc ws seg g ps rk rkf ord m) {k : Nat} {w : Witness} (hw : ws[k]? = some w) :
    ∃ p, ps[k]? = some p ∧ p.sigil = w.sigil ∧ p.text = w.tokens := by
  have h1 := congrArg (fun l => l[k]?) C.readings
  simp only [CollateX.readings, List.getElem?_map, hw, Option.map_some] at h1
  obtain ⟨p, h2, h3⟩ := Option.map_eq_some_iff.mp h1
  injection h3 with h3 h4
  exact ⟨p, h2, h3, h4⟩

theorem Collated.sigils (C : Collated cc ws seg g ps rk rkf ord m) : ps.map WPath.sigil = ws.map Witness.sigil := by
  have h1 := congrArg (List.map Prod.fst) C.readings
  rw [CollateX.readings, List.map_map, List.map_map] at h1
  exact h1

theorem Collated.sigil_ne (C : Collated cc ws seg g ps rk rkf ord m) (hs : ∀ w ∈ ws, w.sigil ≠ []) :
    ∀ p ∈ ps, p.sigil ≠ [] := by
  intro p hp
  have : p.sigil ∈ ps.map WPath.sigil := List.mem_map.mpr ⟨p, hp, rfl⟩
  rw [C.sigils] at this
  obtain ⟨w, hw, he⟩ := List.mem_map.mp this
  rw [← he]; exact hs w hw

/-- Tokens on a vertex belong to the path of their witness. -/
theorem Collated.carries (C : Collated cc ws seg g ps rk rkf ord m) (hs : ∀ w ∈ ws, w.sigil ≠ []) {v : VId} {σ : Str}
    {ts : List Token} : CarriesAt g v σ ts ↔ ∃ p ∈ ps, p.sigil = σ ∧ (v, ts) ∈ p.segs := by
  constructor
  · rintro ⟨x, hx, hd⟩
    by_cases hσ : σ = []
    · subst hσ
      obtain ⟨_, p, hp, h0, _⟩ := C.ginv.tok0 v x hx ts hd
      exact absurd h0 (C.sigil_ne hs p hp)
    · exact (C.ginv.tok v x hx σ hσ ts).mp hd
  · rintro ⟨p, hp, rfl, hm⟩
    obtain ⟨x, hx⟩ := exists_dget_of_mem_keys (C.ginv.segs_in p hp _ hm).1
    exact ⟨x, hx, (C.ginv.tok v x hx _ (C.sigil_ne hs p hp) ts).mpr ⟨p, hp, rfl, hm⟩⟩

theorem sigil_unique (hg : GInv g ps) {p q : WPath} (hp : p ∈ ps) (hq : q ∈ ps) (h : p.sigil = q.sigil) : p = q :=
  List.inj_on_of_nodup_map hg.sig_nd hp hq h

theorem Collated.reads (C : Collated cc ws seg g ps rk rkf ord m) (hs : ∀ w ∈ ws, w.sigil ≠ []) {k : Nat} {w : Witness}
    {p : WPath} (hw : ws[k]? = some w) (hp : ps[k]? = some p) : Reads g w.sigil p.path w.tokens := by
  obtain ⟨p', hp', h1, h2⟩ := C.at hw
  rw [hp] at hp'
  obtain rfl := Option.some.inj hp'
  have hpm := List.mem_of_getElem? hp
  refine ⟨?_, ?_, ?_, C.ginv.path_nodup hpm⟩
  · intro u v huv
    exact (C.ginv.edges_iff u v).mpr ⟨p, hpm, huv⟩
  · refine ⟨p.segs, rfl, ?_, ?_⟩
    · rw [← h2]; unfold WPath.text; rw [List.flatMap_def]
    · intro q hq
      exact ⟨(C.ginv.segs_in p hpm q hq).2.2.2, (C.carries hs).mpr ⟨p, hpm, h1, hq⟩⟩
  · intro v us hc
    obtain ⟨q, hq, h3, h4⟩ := (C.carries hs).mp hc
    obtain rfl := sigil_unique C.ginv hq hpm (by rw [h3, h1])
    unfold WPath.path WPath.inner
    simp only [List.mem_cons, List.mem_append, List.mem_map]
    exact Or.inr (Or.inl ⟨_, h4, rfl⟩)

theorem labelOf_eq (ps : List WPath) (ws : List Witness) (h : ps.map WPath.sigil = ws.map Witness.sigil) (u v : VId) :
    labelOf ps u v = List.intercalate (S ", ") (sigillaAlong ws (ps.map WPath.path) u v) := by
  classical
  unfold labelOf sigillaAlong
  congr 1
  induction ps generalizing ws with
  | nil => simp
  | cons p ps ih =>
    cases ws with
    | nil => simp at h
    | cons w ws =>
      simp only [List.map_cons, List.cons.injEq] at h
      simp only [List.map_cons, List.zip_cons_cons, List.filter_cons]
      have hd : ∀ (i1 i2 : Decidable ([u, v] <:+: p.path)), @decide _ i1 = @decide _ i2 := by
        intro i1 i2; congr
      by_cases hc : [u, v] <:+: p.path
      · have hc' : Consec p.path u v := hc
        rw [if_pos (by simpa using hc'), if_pos (by simpa using hc), List.map_cons, List.map_cons, ih ws h.2, h.1]
      · have hc' : ¬ Consec p.path u v := hc
        rw [if_neg (by simpa using hc'), if_neg (by simpa using hc), ih ws h.2]

end

/-- Witnesses keep their sigla. -/
theorem indexed_sigil_ne {ws : List Witness} (hs : ∀ w ∈ ws, w.sigil ≠ []) : ∀ w ∈ indexed 0 ws, w.sigil ≠ [] := by
  intro w hw
  have : w.sigil ∈ (indexed 0 ws).map Witness.sigil := List.mem_map.mpr ⟨w, hw, rfl⟩
  rw [indexed_sigla] at this
  obtain ⟨x, hx, he⟩ := List.mem_map.mp this
  rw [← he]; exact hs x hx

/-- A token of the indexed witnesses occurs once. -/
theorem _root_.CollateX.Spec.Valid.token_unique {ws : List Witness} (hv : Valid ws) {k l i j : Nat} {w x : Witness} {t : Token}
    (hw : (indexed 0 ws)[k]? = some w) (hx : (indexed 0 ws)[l]? = some x) (hi : w.tokens[i]? = some t)
    (hj : x.tokens[j]? = some t) : k = l ∧ i = j := by
  obtain ⟨ti, _, hws, L, _⟩ := hv.tokenIndex
  rw [← hws] at hw hx
  have h1 := L.tok_pos k i w t hw hi
  have h2 := L.tok_pos l j x t hx hj
  rw [h1] at h2
  have h3 : off ti.ws k + i = off ti.ws l + j := by
    injection h2 with h2
    injection h2
  have hil := (List.getElem?_eq_some_iff.mp hi).1
  have hjl := (List.getElem?_eq_some_iff.mp hj).1
  have := decode_unique ti.ws (off ti.ws k + i) k l w x hw hx (by omega) (by omega) (by omega) (by omega)
  subst this
  exact ⟨rfl, by omega⟩

theorem _root_.CollateX.Spec.Valid.tokens_nodup {ws : List Witness} (hv : Valid ws) {k : Nat} {w : Witness}
    (hw : (indexed 0 ws)[k]? = some w) : w.tokens.Nodup := by
  rw [List.nodup_iff_pairwise_ne, List.pairwise_iff_getElem]
  intro i j hi hj hij he
  have := (hv.token_unique hw hw (List.getElem?_eq_getElem hi) (by rw [he]; exact List.getElem?_eq_getElem hj)).2
  omega

/-! ### Walks -/

/-- From the first vertex of a path to any vertex on it. -/
theorem walk_to {es : List (VId × VId)} {l : List VId} {a : VId} (h : ∀ u v, Consec (a :: l) u v → (u, v) ∈ es) :
    ∀ u ∈ a :: l, ∃ n, Walk es a u n := by
  have key : ∀ (i : Nat) (u : VId), (a :: l)[i]? = some u → ∃ n, Walk es a u n := by
    intro i
    induction i with
    | zero => intro u hu; simp at hu; subst hu; exact ⟨0, .nil _⟩
    | succ i ih =>
      intro u hu
      have hlt := (List.getElem?_eq_some_iff.mp hu).1
      obtain ⟨w, hw⟩ : ∃ w, (a :: l)[i]? = some w := ⟨_, List.getElem?_eq_getElem (by omega)⟩
      obtain ⟨n, hn⟩ := ih w hw
      exact ⟨n + 1, .snoc hn (h w u (consec_iff_getElem.mpr ⟨i, hw, hu⟩))⟩
  intro u hu
  obtain ⟨i, hi⟩ := List.getElem?_of_mem hu
  exact key i u hi

/-- From any vertex of a path to its last vertex. -/
theorem walk_from {es : List (VId × VId)} {z : VId} : ∀ {l : List VId}, (∀ u v, Consec (l ++ [z]) u v → (u, v) ∈ es) →
    ∀ u ∈ l ++ [z], ∃ n, Walk es u z n
  | [], _, u, hu => by simp at hu; subst hu; exact ⟨0, .nil _⟩
  | a :: l, h, u, hu => by
    have ih := walk_from (l := l) (fun u v hc => h u v (consec_cons.mpr (Or.inr hc)))
    rcases List.mem_cons.mp hu with rfl | hu
    · obtain ⟨b, hb⟩ : ∃ b, (l ++ [z]).head? = some b := by cases l <;> simp
      obtain ⟨n, hn⟩ := ih b (List.mem_of_mem_head? hb)
      have he : (u, b) ∈ es := h u b (consec_cons.mpr (Or.inl ⟨rfl, hb⟩))
      exact ⟨_, Walk.trans (.snoc (.nil u) he) hn⟩
    · exact ih u hu

/-- Everything lies between start and end. -/
theorem GInv.walks {g : VGraph} {ps : List WPath} (hg : GInv g ps) (hne : ps ≠ []) : ∀ v ∈ g.vertices,
    (∃ n, Walk g.pairs startV v n) ∧ ∃ n, Walk g.pairs v endV n := by
  have key : ∀ p ∈ ps, ∀ v ∈ p.path, (∃ n, Walk g.pairs startV v n) ∧ ∃ n, Walk g.pairs v endV n := by
    intro p hp v hv
    have hc : ∀ u v, Consec p.path u v → (u, v) ∈ g.pairs := fun u v h => (hg.edges_iff u v).mpr ⟨p, hp, h⟩
    refine ⟨walk_to (a := startV) (l := p.inner ++ [endV]) hc v hv, ?_⟩
    exact walk_from (z := endV) (l := startV :: p.inner) hc v hv
  obtain ⟨p, hp⟩ := List.exists_mem_of_ne_nil ps hne
  intro v hv
  by_cases h1 : v = startV
  · subst h1
    exact key p hp _ (by simp [WPath.path])
  · by_cases h2 : v = endV
    · subst h2
      exact key p hp _ (by simp [WPath.path])
    · obtain ⟨q, hq, hvq⟩ := hg.cover v hv h1 h2
      exact key q hq v (by simp [WPath.path, hvq])

theorem joinLoop_mono (cc : CharClass) : ∀ (fuel : Nat) (g : VGraph) (pr q : List VId) (g' : VGraph),
    joinLoop cc fuel g pr q = .ok g' → ∀ k, joinLoop cc (fuel + k) g pr q = .ok g' := by
  intro fuel
  induction fuel with
  | zero =>
    intro g pr q g' h k
    cases q with
    | nil => rw [joinLoop] at h ⊢; exact h
    | cons v q => simp [joinLoop] at h
  | succ fuel ih =>
    intro g pr q g' h k
    cases q with
    | nil => rw [joinLoop] at h ⊢; exact h
    | cons v q =>
      rw [show fuel + 1 + k = (fuel + k) + 1 by omega]
      rw [joinLoop] at h ⊢
      simp only at h ⊢
      split
      · rename_i e he
        rw [he] at h
        simp only at h
        split
        · rename_i hc
          rw [if_pos hc] at h
          obtain ⟨g1, h1, h2⟩ := bind_eq_ok.mp h
          rw [h1, bind_ok]
          exact ih _ _ _ _ h2 k
        · rename_i hc
          rw [if_neg hc] at h
          rw [he]
          exact ih _ _ _ _ h k
      · rename_i hne
        split at h
        · rename_i e he
          exact absurd he (hne e)
        · exact ih _ _ _ _ h k

theorem Maximal.fullySegmented {g : VGraph} {ps : List WPath} (hg : GInv g ps) (h : Maximal g) : FullySegmented g := by
  intro v c hv hvc hce hb
  by_contra hcon
  apply h v c hv
  rw [joinable_iff hg.edges_nd]
  refine ⟨hvc, hb, hce, ?_⟩
  intro a ha
  by_contra hne
  exact hcon ⟨a, ha, hne⟩

end CollateX
