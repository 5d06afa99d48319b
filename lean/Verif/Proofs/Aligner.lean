import Verif.Proofs.MergeInv
import Verif.Proofs.NW
import Verif.Proofs.Cube
/-
One step of the aligner, and the loop over the witnesses.
-/

namespace CollateX
open Spec

/-! ### Counting ranks -/

theorem mem_distinct {α : Type} [DecidableEq α] {l : List α} {a : α} : a ∈ distinct l ↔ a ∈ l := by
  induction l with
  | nil => simp [distinct]
  | cons b l ih =>
    simp only [distinct]
    split
    · rw [ih]
      constructor
      · intro h; simp [h]
      · intro h
        rcases List.mem_cons.mp h with rfl | h
        · assumption
        · exact h
    · simp [ih]

theorem nodup_distinct {α : Type} [DecidableEq α] (l : List α) : (distinct l).Nodup := by
  induction l with
  | nil => simp [distinct]
  | cons b l ih =>
    simp only [distinct]
    split
    · exact ih
    · rename_i h
      rw [List.nodup_cons]
      exact ⟨fun hm => h (mem_distinct.mp hm), ih⟩

theorem rankCount_eq {g : VGraph} {rk : VId → Nat} {o : List VId} {m : Nat} {r : Ranking} (h : RankingOf g rk o m r) :
    rankCount g r = m - 1 := by
  unfold rankCount
  congr 1
  have hp : (distinct (g.vertices.map (dget r.byVertex))).Perm ((List.range m).map some) := by
    rw [List.perm_ext_iff_of_nodup (nodup_distinct _)
      (List.Nodup.map (Option.some_injective _) List.nodup_range)]
    intro a
    rw [mem_distinct]
    constructor
    · intro ha
      obtain ⟨v, hv, rfl⟩ := List.mem_map.mp ha
      rw [h.byVertex hv]
      exact List.mem_map.mpr ⟨rk v, List.mem_range.mpr (h.lt_m hv), rfl⟩
    · intro ha
      obtain ⟨k, hk, rfl⟩ := List.mem_map.mp ha
      obtain ⟨v, hv, he⟩ := h.st.ne k (List.mem_range.mp hk)
      have hv' := h.topo.perm.mem_iff.mp hv
      exact List.mem_map.mpr ⟨v, hv', by rw [h.byVertex hv', he]⟩
  have := hp.length_eq
  simpa using this

/-! ### The alignment -/

theorem alignLoop_nodup (m : Cube) (ss : List Score) : ∀ (al : Dict Token VId) (used : List VId) (al' : Dict Token VId),
    alignLoop m ss al used = .ok al' → (al.map Prod.fst).Nodup → (al'.map Prod.fst).Nodup := by
  induction ss with
  | nil =>
    intro al used al' h hn
    simp only [alignLoop] at h
    obtain rfl := Except.ok.inj h
    exact hn
  | cons s ss ih =>
    intro al used al' h hn
    unfold alignLoop at h
    split at h
    · obtain ⟨p, _, h⟩ := bind_eq_ok.mp h
      split at h
      · exact ih _ _ _ h hn
      · exact ih _ _ _ h (nodup_keys_dset hn _ _)
    · exact ih _ _ _ h hn

/-- What `align_matching_tokens` returns: pairs of the cube, monotone and injective. -/
structure AlFacts (m : Cube) (al : Dict Token VId) : Prop where
  nd : (al.map Prod.fst).Nodup
  src : ∀ t v, dget al t = some v → ∃ y x : Nat, dget m ((y : Int), (x : Int)) = some (v, t)
  inj : ∀ t t' v, dget al t = some v → dget al t' = some v → t = t'
  mono : ∀ t t' v v', dget al t = some v → dget al t' = some v' → ∃ y x y' x' : Nat,
    dget m ((y : Int), (x : Int)) = some (v, t) ∧ dget m ((y' : Int), (x' : Int)) = some (v', t') ∧ (y < y' → x ≤ x')

theorem alignMatching_ok {m : Cube} {width h : Nat} {cells : List (List Score)} (ht : TableEq m width h cells)
    (hw : 0 < width) {row : Token → Int} (hrow : ∀ y x v t, dget m (y, x) = some (v, t) → row t = y) :
    ∃ al, alignMatching m cells = .ok al ∧ AlFacts m al := by
  have hlen := ht.len
  have hr0 : cells[0]? = some (cells[0]'(by omega)) := List.getElem?_eq_getElem (by omega)
  have hr0l := ht.rowlen 0 _ hr0
  obtain ⟨ss, h1, h2, _⟩ := traceback_ok ht (cells.length + (cells[0]'(by omega)).length) (cells.length - 1)
    ((cells[0]'(by omega)).length - 1) (by omega) (by omega) (by omega)
  have hmem := h2.mem ht
  have hpw := (h2.pairwise ht).2
  have hhas : ∀ s ∈ ss, s.type = .match → m.has ((s.y : Int) - 1) ((s.x : Int) - 1) = true ∧ 1 ≤ s.y ∧ 1 ≤ s.x := by
    intro s hs hst
    have := ht.cell_ok s.y s.x s (hmem s hs)
    have := this.isMatch hst
    exact ⟨this.1, by omega, this.2.2⟩
  obtain ⟨al, hal⟩ := alignLoop_ok m ss (fun s hs hst => (hhas s hs hst).1) [] []
  refine ⟨al, ?_, ?_⟩
  · unfold alignMatching
    simp only [lgetE_eq_ok.mpr hr0, bind_ok, h1, hal]
  · have hinv := alignLoop_inv m ss [] [] al hal (by simp) (by simp) (by simp)
      (hpw.imp (by
        intro s s' hss t v t' v' hsrc hsrc' he
        subst he
        have h3 := hrow _ _ _ _ hsrc.2
        have h4 := hrow _ _ _ _ hsrc'.2
        have h5 := hss.2.2 hsrc.1
        omega))
    have hsrc : ∀ t v, dget al t = some v → ∃ s ∈ ss, AlSrc m s t v := by
      intro t v htv
      rcases hinv.1 t v htv with h | h
      · simp at h
      · exact h
    have hcoord : ∀ s ∈ ss, ∀ t v, AlSrc m s t v → 1 ≤ s.y ∧ 1 ≤ s.x ∧
        dget m (((s.y - 1 : Nat) : Int), ((s.x - 1 : Nat) : Int)) = some (v, t) := by
      intro s hs t v hsr
      have h3 := hhas s hs hsr.1
      refine ⟨h3.2.1, h3.2.2, ?_⟩
      have e1 : ((s.y - 1 : Nat) : Int) = (s.y : Int) - 1 := by omega
      have e2 : ((s.x - 1 : Nat) : Int) = (s.x : Int) - 1 := by omega
      rw [e1, e2]
      exact hsr.2
    refine ⟨alignLoop_nodup m ss [] [] al hal (by simp), ?_, hinv.2.1, ?_⟩
    · intro t v htv
      obtain ⟨s, hs, hsr⟩ := hsrc t v htv
      exact ⟨s.y - 1, s.x - 1, (hcoord s hs t v hsr).2.2⟩
    · intro t t' v v' htv htv'
      obtain ⟨s, hs, hsr⟩ := hsrc t v htv
      obtain ⟨s', hs', hsr'⟩ := hsrc t' v' htv'
      have c := hcoord s hs t v hsr
      have c' := hcoord s' hs' t' v' hsr'
      refine ⟨s.y - 1, s.x - 1, s'.y - 1, s'.x - 1, c.2.2, c'.2.2, ?_⟩
      intro hlt
      obtain ⟨i, hi, rfl⟩ := List.mem_iff_getElem.mp hs
      obtain ⟨j, hj, rfl⟩ := List.mem_iff_getElem.mp hs'
      have hpw' := List.pairwise_iff_getElem.mp hpw
      rcases Nat.lt_trichotomy i j with h | h | h
      · have := (hpw' i j hi hj h).1
        omega
      · subst h; omega
      · have := (hpw' j i hj hi h).2.1
        omega

/-! ### Positions -/

/-- The loop of lines 350–359. -/
theorem updatePos_ok (P : Nat → VId → Prop) (l : Dict Token VId)
    (hl : ∀ t v, (t, v) ∈ l → ∃ p, tokenPos t = .ok p ∧ P p v) : ∀ (d : Dict Nat VId),
    (∀ p v, dget d p = some v → P p v) →
    ∃ d', updatePos l d = .ok d' ∧ (∀ p v, dget d' p = some v → P p v) ∧
      (∀ p, p ∈ d.map Prod.fst → p ∈ d'.map Prod.fst) ∧
      (∀ t ∈ l.map Prod.fst, ∀ p, tokenPos t = .ok p → p ∈ d'.map Prod.fst) := by
  induction l with
  | nil => intro d hd; exact ⟨d, rfl, hd, fun _ h => h, by simp⟩
  | cons q l ih =>
    obtain ⟨t, v⟩ := q
    intro d hd
    obtain ⟨p, hp1, hp2⟩ := hl t v (by simp)
    obtain ⟨d', h1, h2, h3, h4⟩ := ih (fun t' v' h => hl t' v' (by simp [h])) (dset d p v) (by
      intro p' v' h
      rw [dget_dset] at h
      split at h
      · rename_i he; obtain rfl := Option.some.inj h; subst he; exact hp2
      · exact hd p' v' h)
    refine ⟨d', ?_, h2, ?_, ?_⟩
    · simp only [updatePos, hp1, bind_ok, h1]
    · intro p' hp'
      exact h3 p' (mem_keys_dset.mpr (Or.inr hp'))
    · intro t' ht' p' hp'
      simp only [List.map_cons, List.mem_cons] at ht'
      rcases ht' with rfl | ht'
      · rw [hp1] at hp'
        obtain rfl := Except.ok.inj hp'
        exact h3 p (mem_keys_dset.mpr (Or.inl rfl))
      · exact h4 t' ht' p' hp'

theorem updateArray_ok (p2v : Dict Nat VId) (n : Nat) : ∀ (p : Nat) (va : List (Option VId)), p + n ≤ va.length →
    (∀ q, p ≤ q → q < p + n → ∃ v, dget p2v q = some v) →
    ∃ va', updateArray p2v n p va = .ok va' ∧ va'.length = va.length ∧
      ∀ q : Nat, va'[q]? = if p ≤ q ∧ q < p + n then some (dget p2v q) else va[q]? := by
  induction n with
  | zero =>
    intro p va _ _
    refine ⟨va, rfl, rfl, ?_⟩
    intro q
    rw [if_neg (by omega)]
  | succ n ih =>
    intro p va hlen hall
    obtain ⟨v, hv⟩ := hall p (by omega) (by omega)
    obtain ⟨va', h1, h2, h3⟩ := ih (p + 1) (va.set p (some v)) (by simp; omega)
      (fun q h1 h2 => hall q (by omega) (by omega))
    refine ⟨va', ?_, by simpa using h2, ?_⟩
    · simp only [updateArray, dgetE_of_dget hv, bind_ok]
      rw [if_pos (by omega)]
      exact h1
    · intro q
      rw [h3 q]
      by_cases hq : q = p
      · subst hq
        rw [if_neg (by omega), if_pos (by omega), hv]
        rw [List.getElem?_set_self (by omega)]
      · by_cases hq2 : p + 1 ≤ q ∧ q < p + 1 + n
        · rw [if_pos hq2, if_pos (by omega)]
        · rw [if_neg hq2, if_neg (by omega), List.getElem?_set_ne (by omega)]

/-! ### The invariant of the aligner -/

/-- Token `t` of a processed witness sits on vertex `v`; its position is `pos`. -/
def Placed (ws : List Witness) (ps : List WPath) (pos : Nat) (v : VId) (t : Token) : Prop :=
  ∃ (k i : Nat) (w : Witness) (p : WPath), ws[k]? = some w ∧ ps[k]? = some p ∧ w.tokens[i]? = some t ∧
    p.segs[i]? = some (v, [t]) ∧ pos = off ws k + i

/-- State of the aligner after the first `ps.length` witnesses. -/
structure AInv (ti : TokenIndex) (s : AlignSt) (ps : List WPath) : Prop where
  ginv : GInv s.g ps
  numbers : s.g.vertices = List.range s.g.next
  len : ps.length ≤ ti.ws.length
  reads : ∀ (k : Nat) (w : Witness) (p : WPath), ti.ws[k]? = some w → ps[k]? = some p →
    p.sigil = w.sigil ∧ p.segs.map Prod.snd = w.tokens.map (fun t => [t])
  label : ∀ p ∈ ps, ∀ v t, (v, [t]) ∈ p.segs → ∀ x, dget s.g.nodes v = some x → x.label = t.str
  va_len : s.va.length = ti.arr.length
  va : ∀ (pos : Nat) (v : VId), s.va[pos]? = some (some v) ↔ ∃ t, Placed ti.ws ps pos v t
  t2v : ∀ t v, (t, v) ∈ s.t2v → ∃ pos, Placed ti.ws ps pos v t
  p2v : ∀ pos v, dget s.p2v pos = some v → ∃ t, Placed ti.ws ps pos v t

theorem Placed.append {ws : List Witness} {ps : List WPath} {pos : Nat} {v : VId} {t : Token} (p : WPath)
    (h : Placed ws ps pos v t) : Placed ws (ps ++ [p]) pos v t := by
  obtain ⟨k, i, w, q, h1, h2, h3⟩ := h
  refine ⟨k, i, w, q, h1, ?_, h3⟩
  have := (List.getElem?_eq_some_iff.mp h2).1
  rw [List.getElem?_append_left this]; exact h2

theorem Placed.unique {ws : List Witness} {ps : List WPath} {pos : Nat} {v v' : VId} {t t' : Token}
    (h : Placed ws ps pos v t) (h' : Placed ws ps pos v' t') : v = v' ∧ t = t' := by
  obtain ⟨k, i, w, p, h1, h2, h3, h4, h5⟩ := h
  obtain ⟨l, j, x, q, g1, g2, g3, g4, g5⟩ := h'
  have hi := (List.getElem?_eq_some_iff.mp h3).1
  have hj := (List.getElem?_eq_some_iff.mp g3).1
  have := decode_unique ws pos k l w x h1 g1 (by omega) (by omega) (by omega) (by omega)
  subst this
  have hij : i = j := by omega
  subst hij
  rw [h2] at g2
  obtain rfl := Option.some.inj g2
  rw [h4] at g4
  injection g4 with g4
  injection g4 with e1 e2
  injection e2 with e2 _
  exact ⟨e1, e2⟩

theorem Placed.tokenPos {ti : TokenIndex} (L : Layout ti) {ps : List WPath} {pos : Nat} {v : VId} {t : Token}
    (h : Placed ti.ws ps pos v t) : tokenPos t = .ok pos := by
  obtain ⟨k, i, w, p, h1, h2, h3, h4, h5⟩ := h
  rw [L.tokenPos h1 h3, h5]

theorem mem_dupdate {K V : Type} [DecidableEq K] {d e : Dict K V} {p : K × V} (h : p ∈ dupdate d e) : p ∈ d ∨ p ∈ e := by
  unfold dupdate at h
  induction e generalizing d with
  | nil => exact Or.inl h
  | cons q e ih =>
    rw [List.foldl_cons] at h
    rcases ih h with h | h
    · rcases mem_dset h with h | h
      · exact Or.inl h
      · right; rw [h]; simp
    · right; simp [h]

theorem newSegs_getElem? {al : Dict Token VId} {n : VId} {ts : List Token} (i : Nat) (t : Token) (h : ts[i]? = some t) :
    ∃ v, (newSegs al n ts)[i]? = some (v, [t]) := by
  have h2 : ((newSegs al n ts).map Prod.snd)[i]? = some [t] := by
    rw [newSegs_snd, List.getElem?_map, h]; rfl
  rw [List.getElem?_map] at h2
  obtain ⟨⟨v, l⟩, h3, h4⟩ := Option.map_eq_some_iff.mp h2
  simp only at h4
  subst h4
  exact ⟨v, h3⟩

/-- A member of the new path, by index. -/
theorem newSegs_index {al : Dict Token VId} {n : VId} {ts : List Token} {v : VId} {t : Token}
    (h : (v, [t]) ∈ newSegs al n ts) : ∃ i : Nat, ts[i]? = some t ∧ (newSegs al n ts)[i]? = some (v, [t]) := by
  obtain ⟨i, hi⟩ := List.getElem?_of_mem h
  refine ⟨i, ?_, hi⟩
  have h2 : ((newSegs al n ts).map Prod.snd)[i]? = some [t] := by rw [List.getElem?_map, hi]; rfl
  rw [newSegs_snd, List.getElem?_map] at h2
  obtain ⟨t', h3, h4⟩ := Option.map_eq_some_iff.mp h2
  injection h4 with h4
  rw [h3, h4]

/-- The part of the step after the alignment is known: merge and bookkeeping. -/
theorem AInv.step {ti : TokenIndex} (L : Layout ti) {s : AlignSt} {ps : List WPath} (hs : AInv ti s ps) {w : Witness}
    (hw : ti.ws[ps.length]? = some w) {al : Dict Token VId} {h : VId → Nat} (ha : AlignOK s.g h w.tokens al)
    (hnd : (al.map Prod.fst).Nodup) (halt : ∀ t v, dget al t = some v → t ∈ w.tokens)
    (hlab : ∀ t v, dget al t = some v → ∀ x, dget s.g.nodes v = some x → x.label = t.str) :
    ∃ p2v1 p2v2 va', updatePos (dupdate s.t2v (merge s.g w.sigil w.tokens al).2) s.p2v = .ok p2v1 ∧
      updatePos al p2v1 = .ok p2v2 ∧
      updateArray p2v2 w.tokens.length (off ti.ws ps.length) s.va = .ok va' ∧
      AInv ti { g := (merge s.g w.sigil w.tokens al).1, t2v := dupdate s.t2v (merge s.g w.sigil w.tokens al).2,
                p2v := p2v2, va := va' } (ps ++ [⟨w.sigil, newSegs al s.g.next w.tokens⟩]) := by
  have hplen : ps.length < ti.ws.length := (List.getElem?_eq_some_iff.mp hw).1
  have hσ : w.sigil ∉ ps.map WPath.sigil := by
    intro hm
    obtain ⟨p, hp, he⟩ := List.mem_map.mp hm
    obtain ⟨j, hj⟩ := List.getElem?_of_mem hp
    have hjl := (List.getElem?_eq_some_iff.mp hj).1
    obtain ⟨x, hx⟩ : ∃ x, ti.ws[j]? = some x := ⟨_, List.getElem?_eq_getElem (by omega)⟩
    have h1 := (hs.reads j x p hx hj).1
    have hxg := List.getElem?_eq_some_iff.mp hx
    have hwg := List.getElem?_eq_some_iff.mp hw
    have := (L.sig_nd.getElem_inj_iff (i := j) (j := ps.length) (hi := by simpa using hxg.1) (hj := by simpa using hwg.1)).mp
      (by simp only [List.getElem_map, hxg.2, hwg.2, ← h1, he])
    omega
  have htne : w.tokens ≠ [] := L.toks_ne w (List.mem_of_getElem? hw)
  have hg' := hs.ginv.merge hσ htne ha
  set P : WPath := ⟨w.sigil, newSegs al s.g.next w.tokens⟩ with hP
  have hlt : ∀ t ∈ w.tokens, ∀ v, dget al t = some v → v < s.g.next :=
    fun t ht v hv => hs.ginv.fresh v (ha.inner t ht v hv).1
  have hsnd : ((newSegs al s.g.next w.tokens).map Prod.fst).Nodup :=
    newSegs_nodup hlt (ha.mono.imp (fun hp v v' h1 h2 => (hp v v' h1 h2).1))
  have hout := mergeLoop_out w.sigil al w.tokens { g := s.g, t2v := [], last := startV } hs.ginv.fresh
    (fun t ht v hv => (ha.inner t ht v hv).1) hsnd
  have hnew : ∀ v t, (v, [t]) ∈ newSegs al s.g.next w.tokens → ∃ pos, Placed ti.ws (ps ++ [P]) pos v t := by
    intro v t hm
    obtain ⟨i, h1, h2⟩ := newSegs_index hm
    exact ⟨off ti.ws ps.length + i, ps.length, i, w, P, hw, by simp, h1, h2, rfl⟩
  have hplaced_al : ∀ t v, dget al t = some v → ∃ pos, Placed ti.ws (ps ++ [P]) pos v t := by
    intro t v htv
    obtain ⟨v', hv'⟩ := newSegs_of_mem (al := al) (n := s.g.next) (halt t v htv)
    obtain ⟨t2, _, e, hc⟩ := newSegs_mem hv'
    injection e with e _
    subst e
    rcases hc with hc | ⟨hc, _⟩
    · rw [htv] at hc
      obtain rfl := Option.some.inj hc
      exact hnew v t hv'
    · rw [htv] at hc; cases hc
  -- token_to_vertex
  have hmg2 : (merge s.g w.sigil w.tokens al).2 =
      (w.tokens.foldl (mergeStep w.sigil al) { g := s.g, t2v := [], last := startV }).t2v := rfl
  have ht2v : ∀ t v, (t, v) ∈ dupdate s.t2v (merge s.g w.sigil w.tokens al).2 →
      ∃ pos, Placed ti.ws (ps ++ [P]) pos v t := by
    intro t v hm
    rcases mem_dupdate hm with hm | hm
    · obtain ⟨pos, hp⟩ := hs.t2v t v hm
      exact ⟨pos, hp.append P⟩
    · rw [hmg2] at hm
      rcases hout.t2v_sound t v hm with hm | ⟨_, _, hm⟩
      · simp at hm
      · exact hnew v t hm
  obtain ⟨p2v1, a1, a2, a3, a4⟩ := updatePos_ok (fun pos v => ∃ t, Placed ti.ws (ps ++ [P]) pos v t)
    (dupdate s.t2v (merge s.g w.sigil w.tokens al).2)
    (by
      intro t v hm
      obtain ⟨pos, hp⟩ := ht2v t v hm
      exact ⟨pos, hp.tokenPos L, t, hp⟩) s.p2v
    (by
      intro pos v hd
      obtain ⟨t, ht⟩ := hs.p2v pos v hd
      exact ⟨t, ht.append P⟩)
  obtain ⟨p2v2, b1, b2, b3, b4⟩ := updatePos_ok (fun pos v => ∃ t, Placed ti.ws (ps ++ [P]) pos v t) al
    (by
      intro t v hm
      obtain ⟨pos, hp⟩ := hplaced_al t v (dget_of_mem hnd hm)
      exact ⟨pos, hp.tokenPos L, t, hp⟩) p2v1 a2
  have hdef : ∀ q, off ti.ws ps.length ≤ q → q < off ti.ws ps.length + w.tokens.length → ∃ v, dget p2v2 q = some v := by
    intro q h1 h2
    obtain ⟨t, ht⟩ : ∃ t, w.tokens[q - off ti.ws ps.length]? = some t :=
      ⟨_, List.getElem?_eq_getElem (by omega)⟩
    have htp := L.tokenPos hw ht
    have e : off ti.ws ps.length + (q - off ti.ws ps.length) = q := by omega
    rw [e] at htp
    apply exists_dget_of_mem_keys
    cases hal : dget al t with
    | some v =>
      exact b4 t (List.mem_map.mpr ⟨_, dget_mem hal, rfl⟩) q htp
    | none =>
      apply b3
      refine a4 t ?_ q htp
      rw [mem_keys_dupdate]
      left
      rw [hmg2, hout.t2v_keys]
      exact Or.inr ⟨List.mem_of_getElem? ht, hal⟩
  have hlast := off_add_lt_total ti.ws ps.length w hw
  obtain ⟨va', c1, c2, c3⟩ := updateArray_ok p2v2 w.tokens.length (off ti.ws ps.length) s.va
    (by rw [hs.va_len]; have := L.len; omega) hdef
  refine ⟨p2v1, p2v2, va', a1, b1, c1, ?_⟩
  constructor
  · exact hg'
  · have h1 := hout.vertices
    have h2 := hout.next
    simp only at h1 h2
    simp only [merge, connect_vertices, connect_next]
    rw [h1, h2, hs.numbers, List.range_eq_range', List.range_eq_range']
    have := List.range'_append_1 (s := 0) (m := s.g.next) (n := newCount al w.tokens)
    rw [Nat.zero_add] at this
    exact this
  · simp; omega
  · intro k x p hx hp
    by_cases hk : k < ps.length
    · rw [List.getElem?_append_left hk] at hp
      exact hs.reads k x p hx hp
    · have hkl := (List.getElem?_eq_some_iff.mp hp).1
      simp at hkl
      have : k = ps.length := by omega
      subst this
      simp only [List.getElem?_append_right (Nat.le_refl _), Nat.sub_self, List.getElem?_cons_zero] at hp
      obtain rfl := Option.some.inj hp
      rw [hw] at hx
      obtain rfl := Option.some.inj hx
      exact ⟨rfl, newSegs_snd _ _ _⟩
  · intro p hp v t hm x hx
    have hx' : dget (w.tokens.foldl (mergeStep w.sigil al) { g := s.g, t2v := [], last := startV }).g.nodes v = some x := by
      simpa [merge] using hx
    by_cases hv : v ∈ (newSegs al s.g.next w.tokens).map Prod.fst
    · obtain ⟨⟨v2, l⟩, hm2, he⟩ := List.mem_map.mp hv
      simp only at he
      subst he
      obtain ⟨t2, ht2, rfl, hc⟩ := newSegs_mem hm2
      -- label of x
      have hxl : x.label = t2.str ∧ (dget al t2 = some v2 ∨ s.g.next ≤ v2) := by
        rcases hc with hc | ⟨hc, hge, _⟩
        · have h8 := hout.aligned v2 t2 hm2 hc
          simp only at h8
          rw [h8] at hx'
          obtain ⟨x0, hx0, rfl⟩ := Option.map_eq_some_iff.mp hx'
          exact ⟨by rw [addToken_label]; exact hlab t2 v2 hc x0 hx0, Or.inl hc⟩
        · have h9 := hout.new v2 t2 hm2 hc
          rw [h9] at hx'
          obtain rfl := Option.some.inj hx'
          exact ⟨rfl, Or.inr hge⟩
      rcases List.mem_append.mp hp with hp | hp
      · -- an old path through v2
        have hv2 := (hs.ginv.segs_in p hp _ hm).1
        rcases hc with hc | ⟨hc, hge, _⟩
        · have h8 := hout.aligned v2 t2 hm2 hc
          simp only at h8
          rw [h8] at hx'
          obtain ⟨x0, hx0, rfl⟩ := Option.map_eq_some_iff.mp hx'
          rw [addToken_label]
          exact hs.label p hp v2 t hm x0 hx0
        · have := hs.ginv.fresh _ hv2
          simp only at this
          omega
      · simp only [List.mem_singleton] at hp
        subst hp
        have e1 := dget_of_mem (d := newSegs al s.g.next w.tokens) hsnd hm
        have e2 := dget_of_mem (d := newSegs al s.g.next w.tokens) hsnd hm2
        rw [e1] at e2
        injection e2 with e2
        injection e2 with e2 _
        subst e2
        exact hxl.1
    · have h7 := hout.same v hv
      simp only at h7
      rw [h7] at hx'
      rcases List.mem_append.mp hp with hp | hp
      · exact hs.label p hp v t hm x hx'
      · simp only [List.mem_singleton] at hp
        subst hp
        exact absurd (List.mem_map.mpr ⟨_, hm, rfl⟩) hv
  · rw [c2]; exact hs.va_len
  · intro pos v
    simp only
    rw [c3 pos]
    split
    · rename_i hr
      constructor
      · intro hd
        exact b2 pos v (Option.some.inj hd)
      · rintro ⟨t, hpl⟩
        obtain ⟨v', hv'⟩ := hdef pos hr.1 hr.2
        obtain ⟨t', ht'⟩ := b2 pos v' hv'
        rw [hv', (ht'.unique hpl).1]
    · rename_i hr
      rw [hs.va]
      constructor
      · rintro ⟨t, ht⟩; exact ⟨t, ht.append P⟩
      · rintro ⟨t, k, i, x, p, h1, h2, h3, h4, h5⟩
        by_cases hk : k < ps.length
        · rw [List.getElem?_append_left hk] at h2
          exact ⟨t, k, i, x, p, h1, h2, h3, h4, h5⟩
        · exfalso
          have hkl := (List.getElem?_eq_some_iff.mp h2).1
          simp at hkl
          have : k = ps.length := by omega
          subst this
          rw [hw] at h1
          obtain rfl := Option.some.inj h1
          have := (List.getElem?_eq_some_iff.mp h3).1
          omega
  · exact ht2v
  · exact b2

/-! ### The first witness -/

theorem alignOK_init (ts : List Token) : AlignOK VGraph.init (fun v => v) ts [] where
  edges := by simp [VGraph.init, VGraph.pairs]
  lo := by decide
  hi := by decide
  inner := by simp
  mono := by simp [List.pairwise_iff_getElem]

theorem firstWitness_ok {ti : TokenIndex} (L : Layout ti) {w : Witness} (hw : ti.ws[0]? = some w) :
    ∃ s, firstWitness ti w = .ok s ∧ AInv ti s [⟨w.sigil, newSegs [] 2 w.tokens⟩] := by
  have h0 : AInv ti { g := VGraph.init, t2v := [], p2v := [], va := List.replicate ti.arr.length none } [] := by
    constructor
    · exact GInv.init
    · rfl
    · simp
    · simp
    · simp
    · simp
    · intro pos v
      constructor
      · intro h
        have := (List.getElem?_eq_some_iff.mp h)
        simp at this
      · rintro ⟨t, k, i, w, p, _, h, _⟩
        simp at h
    · simp
    · simp
  obtain ⟨p1, p2, va', h1, h2, h3, h4⟩ := h0.step L (w := w) hw (al := []) (alignOK_init w.tokens) (by simp) (by simp) (by simp)
  simp only [updatePos] at h2
  obtain rfl := Except.ok.inj h2
  have hmu : ∀ d : Dict Token VId, (d.map Prod.fst).Nodup → dupdate [] d = d := by
    intro d hd
    unfold dupdate
    have key : ∀ (d e : Dict Token VId), ((e ++ d).map Prod.fst).Nodup →
        List.foldl (fun d p => dset d p.1 p.2) e d = e ++ d := by
      intro d
      induction d with
      | nil => intro e _; simp
      | cons q d ih =>
        intro e he
        rw [List.foldl_cons, dset_of_not_mem]
        · rw [ih]
          · simp
          · simpa using he
        · rw [List.map_append, List.nodup_append] at he
          intro hm
          exact he.2.2 _ hm q.1 (by simp) rfl
    simpa using key d [] (by simpa using hd)
  have hm2 : ((merge VGraph.init w.sigil w.tokens []).2.map Prod.fst).Nodup := by
    have : ∀ (ts : List Token) (s : MergeSt), (s.t2v.map Prod.fst).Nodup →
        (((ts.foldl (mergeStep w.sigil []) s).t2v).map Prod.fst).Nodup := by
      intro ts
      induction ts with
      | nil => intro s h; exact h
      | cons t ts ih =>
        intro s h
        rw [List.foldl_cons]
        apply ih
        simp only [mergeStep, dget_nil]
        exact nodup_keys_dset h _ _
    exact this w.tokens _ (by simp)
  rw [hmu _ hm2] at h1 h4
  refine ⟨_, ?_, h4⟩
  unfold firstWitness
  simp only [h1, bind_ok, L.range 0 w hw, Nat.add_sub_cancel_left]
  simp only [List.length_nil] at h3
  rw [h3]
  rfl

/-! ### The loop -/

/-- What a step of the loop computes. -/
structure StepOf (ts : TopoFn) (pf : Option PFilter) (ti : TokenIndex) (s : AlignSt) (ps : List WPath) (w : Witness)
    (P : WPath) (rkf : VId → Nat) (o : List VId) (m : Nat) (r : Ranking) (cube : Cube) (cells : List (List Score))
    (al : Dict Token VId) : Prop where
  rank : RankingOf s.g rkf o m r
  cube_ok : mkCube pf ti w s.va r = .ok cube
  hits : CubeAll (CubeHit pf ti s.va rkf (off ti.ws ps.length) w) cube
  table : TableEq cube (rankCount s.g r) w.tokens.length cells
  width : 0 < rankCount s.g r
  align : alignMatching cube cells = .ok al
  facts : AlFacts cube al
  path : P = ⟨w.sigil, newSegs al s.g.next w.tokens⟩
  ranking : rankingOf ts s.g = .ok r
  fill : fillTable cube (rankCount s.g r) w.tokens.length = .ok cells
  complete : pf = none → ∀ (i q : Nat) (t t' : Token) (v : VId), w.tokens[i]? = some t → q < off ti.ws ps.length →
    ti.arr[q]? = some t' → s.va[q]? = some (some v) → t'.str = t.str → cube.has (i : Int) ((rkf v : Int) - 1) = true

/-- One step of the loop succeeds and keeps the invariant. -/
theorem alignStep_full {ts : TopoFn} (hts : TopoSpec ts) (pf : Option PFilter) {ti : TokenIndex} (L : Layout ti)
    (B : BlocksOK ti) {s : AlignSt} {ps : List WPath} (hs : AInv ti s ps) (hne : ps ≠ []) {w : Witness}
    (hw : ti.ws[ps.length]? = some w) :
    ∃ s' P rkf o m r cube cells al, alignStep ts pf false ti s w = .ok s' ∧ AInv ti s' (ps ++ [P]) ∧
      StepOf ts pf ti s ps w P rkf o m r cube cells al := by
  obtain ⟨rkf, o, m, r, hr, hrk⟩ := rankingOf_ok hts hs.ginv.wf hs.ginv.near
  have hedge : ∀ p ∈ s.g.pairs, rkf p.1 < rkf p.2 := fun p hp => hrk.isRank.lt hs.ginv.wf hp
  have hbd := hs.ginv.rank_bounds hne hedge
  -- vertices of placed tokens
  have hplv : ∀ pos v t, Placed ti.ws ps pos v t → v ∈ s.g.vertices ∧ v ≠ startV ∧ v ≠ endV ∧
      ∀ x, dget s.g.nodes v = some x → x.label = t.str := by
    rintro pos v t ⟨k, i, x, p, h1, h2, h3, h4, h5⟩
    have hp : p ∈ ps := List.mem_of_getElem? h2
    have hseg : (v, [t]) ∈ p.segs := List.mem_of_getElem? h4
    have := hs.ginv.segs_in p hp _ hseg
    exact ⟨this.1, this.2.1, this.2.2.1, hs.label p hp v t hseg⟩
  have hva : ∀ (j i : Nat) (x : Witness), j < ps.length → ti.ws[j]? = some x → i < x.tokens.length →
      ∃ v, s.va[off ti.ws j + i]? = some (some v) ∧ dget r.byVertex v = some (rkf v) := by
    intro j i x hj hx hi
    obtain ⟨p, hp⟩ : ∃ p, ps[j]? = some p := ⟨_, List.getElem?_eq_getElem hj⟩
    obtain ⟨t, ht⟩ : ∃ t, x.tokens[i]? = some t := ⟨_, List.getElem?_eq_getElem hi⟩
    have hrd := (hs.reads j x p hx hp).2
    have h2 : (p.segs.map Prod.snd)[i]? = some [t] := by rw [hrd, List.getElem?_map, ht]; rfl
    rw [List.getElem?_map] at h2
    obtain ⟨⟨v, l⟩, h3, h4⟩ := Option.map_eq_some_iff.mp h2
    simp only at h4
    subst h4
    have hpl : Placed ti.ws ps (off ti.ws j + i) v t := ⟨j, i, x, p, hx, hp, ht, h3, rfl⟩
    exact ⟨v, (hs.va _ _).mpr ⟨t, hpl⟩, hrk.byVertex (hplv _ _ _ hpl).1⟩
  obtain ⟨cube, hc1, hc2, hc3⟩ := mkCube_ok L B pf hw s.va r rkf hva
  -- entries of the cube
  have hcube : ∀ key v t, dget cube key = some (v, t) → ∃ i : Nat, w.tokens[i]? = some t ∧
      key = ((i : Int), (rkf v : Int) - 1) ∧ v ∈ s.g.vertices ∧ v ≠ startV ∧ v ≠ endV ∧
      ∀ x, dget s.g.nodes v = some x → x.label = t.str := by
    intro key v t hd
    obtain ⟨i, q, t', h1, h2, h3, _, h5, h6, _⟩ := hc2 key v t hd
    obtain ⟨t2, hpl⟩ := (hs.va q v).mp h3
    have h7 := hplv q v t2 hpl
    have h8 : t2 = t' := by
      obtain ⟨k, i', x, p, g1, g2, g3, g4, g5⟩ := hpl
      have := L.arr_tok k i' x t2 g1 g3
      rw [← g5, h5] at this
      exact (Option.some.inj this).symm
    subst h8
    exact ⟨i, h1, h2, h7.1, h7.2.1, h7.2.2.1, fun x hx => by rw [h7.2.2.2 x hx, h6]⟩
  -- width of the table
  have hwidth : 0 < rankCount s.g r := by
    rw [rankCount_eq hrk]
    have h1 := hrk.lt_m hs.ginv.end_mem
    have h2 := (hbd endV hs.ginv.end_mem).1 (by decide)
    omega
  obtain ⟨cells, hf1, hf2⟩ := fillTable_eq cube (rankCount s.g r) w.tokens.length hwidth
  have hnd := L.tokens_nodup hw
  have hrow : ∀ y x v t, dget cube (y, x) = some (v, t) → ((w.tokens.idxOf t : Nat) : Int) = y := by
    intro y x v t hd
    obtain ⟨i, h1, h2, _⟩ := hcube _ v t hd
    injection h2 with h2 _
    obtain ⟨hil, hie⟩ := List.getElem?_eq_some_iff.mp h1
    rw [h2, ← hie, hnd.idxOf_getElem i hil]
  obtain ⟨al, ha1, ha2⟩ := alignMatching_ok hf2 hwidth (row := fun t => ((w.tokens.idxOf t : Nat) : Int)) hrow
  have hal : AlignOK s.g rkf w.tokens al := by
    refine ⟨hedge, fun v hv => (hbd v hv).1, fun v hv => (hbd v hv).2, ?_, ?_⟩
    · intro t _ v htv
      obtain ⟨y, x, hd⟩ := ha2.src t v htv
      obtain ⟨i, _, _, h3, h4, h5, _⟩ := hcube _ v t hd
      exact ⟨h3, h4, h5⟩
    · rw [List.pairwise_iff_getElem]
      intro i j hi hj hij v v' h1 h2
      constructor
      · rintro rfl
        have := ha2.inj _ _ _ h1 h2
        have := (hnd.getElem_inj_iff (hi := hi) (hj := hj)).mp this
        omega
      · obtain ⟨y, x, y', x', g1, g2, g3⟩ := ha2.mono _ _ _ _ h1 h2
        have e1 := hrow _ _ _ _ g1
        have e2 := hrow _ _ _ _ g2
        rw [hnd.idxOf_getElem i hi] at e1
        rw [hnd.idxOf_getElem j hj] at e2
        have g4 := g3 (by omega)
        obtain ⟨_, _, e3, _⟩ := hcube _ _ _ g1
        obtain ⟨_, _, e4, _⟩ := hcube _ _ _ g2
        injection e3 with _ e3
        injection e4 with _ e4
        omega
  have halt : ∀ t v, dget al t = some v → t ∈ w.tokens := by
    intro t v htv
    obtain ⟨y, x, hd⟩ := ha2.src t v htv
    obtain ⟨i, h1, _⟩ := hcube _ v t hd
    exact List.mem_of_getElem? h1
  have hlab : ∀ t v, dget al t = some v → ∀ x, dget s.g.nodes v = some x → x.label = t.str := by
    intro t v htv
    obtain ⟨y, x, hd⟩ := ha2.src t v htv
    obtain ⟨i, _, _, _, _, _, h6⟩ := hcube _ v t hd
    exact h6
  obtain ⟨p1, p2, va', s1, s2, s3, s4⟩ := hs.step L hw hal ha2.nd halt hlab
  refine ⟨_, _, rkf, o, m, r, cube, cells, al, ?_, s4, hrk, hc1, hc2, hf2, hwidth, ha1, ha2, rfl, hr, hf1, hc3⟩
  unfold alignStep
  simp only [hr, bind_ok, hc1, hf1, ha1, s1, s2, L.range _ w hw, Nat.add_sub_cancel_left, s3]
  rfl

/-- One step of the loop, without the details. -/
theorem alignStep_ok {ts : TopoFn} (hts : TopoSpec ts) (pf : Option PFilter) {ti : TokenIndex} (L : Layout ti)
    (B : BlocksOK ti) {s : AlignSt} {ps : List WPath} (hs : AInv ti s ps) (hne : ps ≠ []) {w : Witness}
    (hw : ti.ws[ps.length]? = some w) :
    ∃ s' P, alignStep ts pf false ti s w = .ok s' ∧ AInv ti s' (ps ++ [P]) := by
  obtain ⟨s', P, _, _, _, _, _, _, _, h1, h2, _⟩ := alignStep_full hts pf L B hs hne hw
  exact ⟨s', P, h1, h2⟩

/-- `Q` is kept by the steps of the loop. -/
def StepKeeps (ts : TopoFn) (pf : Option PFilter) (ti : TokenIndex) (Q : AlignSt → List WPath → Prop) : Prop :=
  ∀ (s s' : AlignSt) (ps : List WPath) (w : Witness) (P : WPath) (rkf : VId → Nat) (o : List VId) (m : Nat) (r : Ranking)
    (cube : Cube) (cells : List (List Score)) (al : Dict Token VId), AInv ti s ps → ps ≠ [] → ti.ws[ps.length]? = some w →
    AInv ti s' (ps ++ [P]) → StepOf ts pf ti s ps w P rkf o m r cube cells al → Q s ps → Q s' (ps ++ [P])

theorem alignWitnesses_inv {ts : TopoFn} (hts : TopoSpec ts) (pf : Option PFilter) {ti : TokenIndex} (L : Layout ti)
    (B : BlocksOK ti) {Q : AlignSt → List WPath → Prop} (hQ : StepKeeps ts pf ti Q) (rest : List Witness) :
    ∀ (s : AlignSt) (ps : List WPath), AInv ti s ps → ps ≠ [] →
    ti.ws.drop ps.length = rest → Q s ps →
    ∃ s' ps', alignWitnesses ts pf false ti rest s = .ok s' ∧ AInv ti s' ps' ∧ ps'.length = ti.ws.length ∧ Q s' ps' := by
  induction rest with
  | nil =>
    intro s ps hs hne hd hq
    refine ⟨s, ps, rfl, hs, ?_, hq⟩
    have := congrArg List.length hd
    simp only [List.length_drop, List.length_nil] at this
    have := hs.len
    omega
  | cons w rest ih =>
    intro s ps hs hne hd hq
    have hw : ti.ws[ps.length]? = some w := by
      have : (ti.ws.drop ps.length)[0]? = some w := by rw [hd]; rfl
      simpa [List.getElem?_drop] using this
    obtain ⟨s1, P, rkf, o, m, r, cube, cells, al, h1, h2, h6⟩ := alignStep_full hts pf L B hs hne hw
    obtain ⟨s2, ps2, h3, h4, h5, h7⟩ := ih s1 (ps ++ [P]) h2 (by simp) (by
      have : ti.ws.drop (ps.length + 1) = rest := by
        rw [← List.drop_drop, hd]; rfl
      simpa using this) (hQ s s1 ps w P rkf o m r cube cells al hs hne hw h2 h6 hq)
    refine ⟨s2, ps2, ?_, h4, h5, h7⟩
    simp only [alignWitnesses, h1, bind_ok, h3]

/-- The whole collation: it succeeds and the invariant holds for all witnesses, and so does any further property that holds
after the first witness and is kept by the steps. -/
theorem collateGraph_inv {ts : TopoFn} (hts : TopoSpec ts) (pf : Option PFilter) {ws : Collation} {ti : TokenIndex}
    (hti : mkTokenIndex ws = .ok ti) (L : Layout ti) (B : BlocksOK ti) {Q : AlignSt → List WPath → Prop}
    (hQ : StepKeeps ts pf ti Q) (h0 : ∀ w s, ti.ws[0]? = some w → AInv ti s [⟨w.sigil, newSegs [] 2 w.tokens⟩] →
      Q s [⟨w.sigil, newSegs [] 2 w.tokens⟩]) :
    ∃ s ps, collateGraph ts pf false ws = .ok (ti, s) ∧ AInv ti s ps ∧ ps.length = ti.ws.length ∧ Q s ps := by
  obtain ⟨w, rest, hws⟩ := List.exists_cons_of_ne_nil L.ne
  have hw0 : ti.ws[0]? = some w := by rw [hws]; rfl
  obtain ⟨s1, h1, h2⟩ := firstWitness_ok L hw0
  obtain ⟨s2, ps2, h3, h4, h5, h6⟩ := alignWitnesses_inv hts pf L B hQ rest s1 _ h2 (by simp) (by rw [hws]; rfl) (h0 w s1 hw0 h2)
  refine ⟨s2, ps2, ?_, h4, h5, h6⟩
  unfold collateGraph
  simp only [hti, bind_ok, hws, h1, h3]

theorem collateGraph_ok {ts : TopoFn} (hts : TopoSpec ts) (pf : Option PFilter) {ws : Collation} {ti : TokenIndex}
    (hti : mkTokenIndex ws = .ok ti) (L : Layout ti) (B : BlocksOK ti) :
    ∃ s ps, collateGraph ts pf false ws = .ok (ti, s) ∧ AInv ti s ps ∧ ps.length = ti.ws.length := by
  obtain ⟨s, ps, h1, h2, h3, _⟩ := collateGraph_inv hts pf hti L B (Q := fun _ _ => True)
    (by intro _ _ _ _ _ _ _ _ _ _ _ _ _ _ _ _ _ _; trivial) (by intro _ _ _ _; trivial)
  exact ⟨s, ps, h1, h2, h3⟩

end CollateX
