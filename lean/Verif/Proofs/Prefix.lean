import Verif.Proofs.Collated
/-
The aligner's state after some of the witnesses.
-/

namespace CollateX
open Spec

theorem alignPrefix_ok {ts : TopoFn} (hts : TopoSpec ts) (pf : Option PFilter) {ti : TokenIndex} (L : Layout ti)
    (B : BlocksOK ti) (pre : List Witness) : ∀ (post : List Witness) (s : AlignSt) (ps : List WPath), AInv ti s ps → ps ≠ [] →
    ti.ws.drop ps.length = pre ++ post →
    ∃ s' ps', alignWitnesses ts pf false ti pre s = .ok s' ∧ AInv ti s' ps' ∧ ps'.length = ps.length + pre.length := by
  induction pre with
  | nil => intro post s ps hs hne hd; exact ⟨s, ps, rfl, hs, rfl⟩
  | cons w pre ih =>
    intro post s ps hs hne hd
    have hw : ti.ws[ps.length]? = some w := by
      have : (ti.ws.drop ps.length)[0]? = some w := by rw [hd]; rfl
      simpa [List.getElem?_drop] using this
    obtain ⟨s1, P, h1, h2⟩ := alignStep_ok hts pf L B hs hne hw
    obtain ⟨s2, ps2, h3, h4, h5⟩ := ih post s1 (ps ++ [P]) h2 (by simp) (by
      have : ti.ws.drop (ps.length + 1) = pre ++ post := by
        rw [← List.drop_drop, hd]; rfl
      simpa using this)
    refine ⟨s2, ps2, ?_, h4, by simp at h5 ⊢; omega⟩
    simp only [alignWitnesses, h1, bind_ok, h3]

/-- The state in which the witness `w` is aligned. -/
structure Before (ts : TopoFn) (pf : Option PFilter) (ti : TokenIndex) (w : Witness) (s : AlignSt) : Prop where
  split : ∃ w0 pre post s0, ti.ws = w0 :: (pre ++ w :: post) ∧ firstWitness ti w0 = .ok s0 ∧
    alignWitnesses ts pf false ti pre s0 = .ok s

theorem Before.inv {ts : TopoFn} (hts : TopoSpec ts) {pf : Option PFilter} {ti : TokenIndex} (L : Layout ti)
    (B : BlocksOK ti) {w : Witness} {s : AlignSt} (h : Before ts pf ti w s) :
    ∃ ps, AInv ti s ps ∧ ps ≠ [] ∧ ti.ws[ps.length]? = some w := by
  obtain ⟨w0, pre, post, s0, h1, h2, h3⟩ := h.split
  obtain ⟨s0', g1, g2⟩ := firstWitness_ok L (w := w0) (by rw [h1]; rfl)
  rw [h2] at g1
  obtain rfl := Except.ok.inj g1
  obtain ⟨s', ps', g3, g4, g5⟩ := alignPrefix_ok hts pf L B pre (w :: post) s0 _ g2 (by simp) (by rw [h1]; rfl)
  rw [h3] at g3
  obtain rfl := Except.ok.inj g3
  refine ⟨ps', g4, ?_, ?_⟩
  · intro h0; rw [h0] at g5; simp at g5; omega
  · rw [g5, h1]
    have : [({ sigil := w0.sigil, segs := newSegs [] 2 w0.tokens } : WPath)].length + pre.length = pre.length + 1 := by
      simp; omega
    rw [this, List.getElem?_cons_succ, List.getElem?_append_right (Nat.le_refl _)]
    simp

section
variable {ti : TokenIndex} {s : AlignSt} {ps : List WPath}

theorem AInv.placed (hs : AInv ti s ps) {j i : Nat} {x : Witness} {p : WPath} {t : Token} (hx : ti.ws[j]? = some x)
    (hp : ps[j]? = some p) (ht : x.tokens[i]? = some t) : ∃ v, p.segs[i]? = some (v, [t]) ∧
      Placed ti.ws ps (off ti.ws j + i) v t := by
  have hrd := (hs.reads j x p hx hp).2
  have h2 : (p.segs.map Prod.snd)[i]? = some [t] := by rw [hrd, List.getElem?_map, ht]; rfl
  rw [List.getElem?_map] at h2
  obtain ⟨⟨v, l⟩, h3, h4⟩ := Option.map_eq_some_iff.mp h2
  simp only at h4
  subst h4
  exact ⟨v, h3, j, i, x, p, hx, hp, ht, h3, rfl⟩

theorem AInv.placed_seg (hs : AInv ti s ps) {pos : Nat} {v : VId} {t : Token} (h : Placed ti.ws ps pos v t) :
    ∃ p ∈ ps, (v, [t]) ∈ p.segs := by
  obtain ⟨k, i, x, p, h1, h2, h3, h4, h5⟩ := h
  exact ⟨p, List.mem_of_getElem? h2, List.mem_of_getElem? h4⟩

theorem AInv.va_rank (hs : AInv ti s ps) {rkf : VId → Nat} {o : List VId} {m : Nat} {r : Ranking}
    (hrk : RankingOf s.g rkf o m r) : ∀ (j i : Nat) (x : Witness), j < ps.length → ti.ws[j]? = some x → i < x.tokens.length →
      ∃ v, s.va[off ti.ws j + i]? = some (some v) ∧ dget r.byVertex v = some (rkf v) := by
  intro j i x hj hx hi
  obtain ⟨p, hp⟩ : ∃ p, ps[j]? = some p := ⟨_, List.getElem?_eq_getElem hj⟩
  obtain ⟨t, ht⟩ : ∃ t, x.tokens[i]? = some t := ⟨_, List.getElem?_eq_getElem hi⟩
  obtain ⟨v, h1, h2⟩ := hs.placed hx hp ht
  refine ⟨v, (hs.va _ _).mpr ⟨t, h2⟩, hrk.byVertex ?_⟩
  exact (hs.ginv.segs_in p (List.mem_of_getElem? hp) _ (List.mem_of_getElem? h1)).1

/-- The cube of the next witness, exactly. -/
theorem AInv.cube (hs : AInv ti s ps) (L : Layout ti) (B : BlocksOK ti) {rkf : VId → Nat} {o : List VId} {m : Nat}
    {r : Ranking} (hrk : RankingOf s.g rkf o m r) {w : Witness} (hw : ti.ws[ps.length]? = some w) :
    ∃ cube, mkCube none ti w s.va r = .ok cube ∧ ∀ y x : Int, cube.has y x = true ↔
      ∃ (i : Nat) (t : Token), y = (i : Int) ∧ w.tokens[i]? = some t ∧
        ∃ p ∈ ps, ∃ v t', (v, [t']) ∈ p.segs ∧ t'.str = t.str ∧ x = (rkf v : Int) - 1 := by
  obtain ⟨cube, hc1, hc2, hc3⟩ := mkCube_ok L B none hw s.va r rkf (hs.va_rank hrk)
  refine ⟨cube, hc1, ?_⟩
  intro y x
  constructor
  · intro h
    obtain ⟨⟨v, t⟩, hd⟩ := Option.isSome_iff_exists.mp (show (dget cube (y, x)).isSome = true from h)
    obtain ⟨i, q, t', h1, h2, h3, _, h5, h6, _⟩ := hc2 _ v t hd
    obtain ⟨t2, hpl⟩ := (hs.va q v).mp h3
    have h8 : t2 = t' := by
      obtain ⟨k, i', x, p, g1, g2, g3, g4, g5⟩ := hpl
      have := L.arr_tok k i' x t2 g1 g3
      rw [← g5, h5] at this
      exact (Option.some.inj this).symm
    subst h8
    injection h2 with h2 h2'
    obtain ⟨p, hp, hm⟩ := hs.placed_seg hpl
    exact ⟨i, t, h2, h1, p, hp, v, t2, hm, h6, h2'⟩
  · rintro ⟨i, t, rfl, ht, p, hp, v, t', hm, hstr, rfl⟩
    obtain ⟨j, hj⟩ := List.getElem?_of_mem hp
    have hjl := (List.getElem?_eq_some_iff.mp hj).1
    have hlen := hs.len
    obtain ⟨xw, hx⟩ : ∃ xw, ti.ws[j]? = some xw := ⟨_, List.getElem?_eq_getElem (by omega)⟩
    obtain ⟨i', hi'⟩ := List.getElem?_of_mem hm
    have hrd := (hs.reads j xw p hx hj).2
    have h2 : (p.segs.map Prod.snd)[i']? = some [t'] := by rw [List.getElem?_map, hi']; rfl
    rw [hrd, List.getElem?_map] at h2
    obtain ⟨t2, ht2, he⟩ := Option.map_eq_some_iff.mp h2
    injection he with he _
    subst he
    have hpl : Placed ti.ws ps (off ti.ws j + i') v t2 := ⟨j, i', xw, p, hx, hj, ht2, hi', rfl⟩
    have hil := (List.getElem?_eq_some_iff.mp ht2).1
    have hlt := off_lt ti.ws j ps.length xw hx hjl (by have := (List.getElem?_eq_some_iff.mp hw).1; omega)
    exact hc3 rfl i (off ti.ws j + i') t t2 v ht (by omega) (L.arr_tok j i' xw t2 hx ht2) ((hs.va _ _).mpr ⟨t2, hpl⟩) hstr

end

end CollateX
