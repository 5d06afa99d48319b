import Verif.Proofs.Nested
import Verif.Spec.Arrangement
/-
The balance of matches and other steps on the traced path, and the columns it needs.
-/

namespace CollateX
open Spec

section
variable {cube : Cube} {width h : Nat} {cells : List (List Score)}

/-- A match scores a point, any other cell loses one. A match that no equal token precedes is reached diagonally. -/
theorem TableEq.type_g (ht : TableEq cube width h cells) (hneg : ∀ x : Nat, cube.has (-1) (x : Int) = false)
    (hM : ∀ y x, ¬ (cube.rel y x = true ∧ cube.rel (y + 1) x = true)) {y x : Nat} {c : Score}
    (hc : cellOf cells y x = some c) (h0 : x ≠ 0 ∨ y ≠ 0) : ∃ p, cellOf cells c.py c.px = some p ∧
      ((c.type = .match ∧ c.g = p.g + 1 ∧ c.px + 1 = x ∧ c.py + 1 = y) ∨ (c.type ≠ .match ∧ c.g = p.g - 1)) := by
  have hb := ht.bounds hc
  match y, x with
  | 0, 0 => simp at h0
  | 0, x + 1 =>
    obtain ⟨p, hp⟩ := ht.exists_cell (y := 0) (x := x) (by omega) (by omega)
    have hpo := ht.cell_ok 0 x p hp
    have h2 := ht.row0 x c p hc hp
    subst h2
    refine ⟨p, ?_, Or.inr ⟨determineType_ne _ _ _, rfl⟩⟩
    simp only [gap, hpo.hx, hpo.hy]; exact hp
  | y + 1, 0 =>
    obtain ⟨p, hp⟩ := ht.exists_cell (y := y) (x := 0) (by omega) (by omega)
    have hpo := ht.cell_ok y 0 p hp
    have h2 := ht.col0 y c p hc hp
    subst h2
    refine ⟨p, ?_, Or.inr ⟨determineType_ne _ _ _, rfl⟩⟩
    simp only [gap, hpo.hx, hpo.hy]; exact hp
  | y + 1, x + 1 =>
    obtain ⟨ul, hul⟩ := ht.exists_cell (y := y) (x := x) (by omega) (by omega)
    obtain ⟨left, hleft⟩ := ht.exists_cell (y := y + 1) (x := x) (by omega) (by omega)
    obtain ⟨up, hup⟩ := ht.exists_cell (y := y) (x := x + 1) (by omega) (by omega)
    have h1 := ht.cell_ok _ _ ul hul
    have h2 := ht.cell_ok _ _ left hleft
    have h3 := ht.cell_ok _ _ up hup
    have h4 := ht.inner y x c ul left up hc hul hleft hup
    rcases max3_cases (scoreCell cube (x + 1) (y + 1) ul) (gap (x + 1) (y + 1) left) (fromUpper cube (y + 1) (x + 1) up)
      with he | he | he
    · rw [he] at h4
      subst h4
      unfold scoreCell
      split
      · exact ⟨ul, by simp only [h1.hx, h1.hy]; exact hul, Or.inl ⟨rfl, rfl, by simp only [h1.hx], by simp only [h1.hy]⟩⟩
      · exact ⟨ul, by simp only [h1.hx, h1.hy]; exact hul, Or.inr ⟨by simp, rfl⟩⟩
    · rw [he] at h4
      subst h4
      exact ⟨left, by simp only [gap, h2.hx, h2.hy]; exact hleft, Or.inr ⟨determineType_ne _ _ _, rfl⟩⟩
    · rw [he] at h4
      subst h4
      unfold fromUpper
      split
      · rename_i q1
        unfold scoreCell
        split
        · rename_i q2
          exfalso
          have e1 : ((y + 1 : Nat) : Int) - 1 = (y : Int) := by omega
          have e2 : ((x + 1 : Nat) : Int) - 1 = (x : Int) := by omega
          have e3 : ((y + 1 : Nat) : Int) - 2 = (y : Int) - 1 := by omega
          rw [e2] at q1 q2
          rw [e1] at q2
          rw [e3] at q1
          cases y with
          | zero =>
            rw [show ((0 : Nat) : Int) - 1 = -1 by omega, hneg x] at q1
            cases q1
          | succ y =>
            rw [show ((y + 1 : Nat) : Int) - 1 = (y : Int) by omega] at q1
            exact hM y x ⟨q1, q2⟩
        · exact ⟨up, by simp only [h3.hx, h3.hy]; exact hup, Or.inr ⟨by simp, rfl⟩⟩
      · exact ⟨up, by simp only [gap, h3.hx, h3.hy]; exact hup, Or.inr ⟨determineType_ne _ _ _, rfl⟩⟩

/-- Whether a cell is a match. -/
def Score.hit (s : Score) : Bool := decide (s.type = .match)

/-- What the trace says about matches, when no column matches two tokens in a row. -/
theorem Trace.balance (ht : TableEq cube width h cells) (hneg : ∀ x : Nat, cube.has (-1) (x : Int) = false)
    (hM : ∀ y x, ¬ (cube.rel y x = true ∧ cube.rel (y + 1) x = true)) {y x : Nat} {ss : List Score} (htr : Trace cells y x ss) :
    (∀ c, cellOf cells y x = some c → c.g = 2 * (ss.countP Score.hit : Int) - ss.length) ∧
      ss.Pairwise (fun s s' => s.type = .match → s'.x < s.x) ∧
      (∀ i, 1 ≤ i → i ≤ x → ∃ s ∈ ss, s.x = i) ∧ (∀ i, 1 ≤ i → i ≤ y → ∃ s ∈ ss, s.y = i) := by
  induction htr with
  | origin =>
    refine ⟨?_, by simp, by intro i h1 h2; omega, by intro i h1 h2; omega⟩
    intro c hc
    rw [ht.origin] at hc
    obtain rfl := Option.some.inj hc
    rfl
  | @step y x c ss h0 hc htr ih =>
    obtain ⟨i1, i2, i3, i4⟩ := ih
    have hok := ht.cell_ok _ _ c hc
    obtain ⟨p, hp, hcase⟩ := ht.type_g hneg hM hc h0
    have hbd := (htr.pairwise ht).1
    have hpar := hok.parent h0
    refine ⟨?_, List.pairwise_cons.mpr ⟨?_, i2⟩, ?_, ?_⟩
    · intro c' hc'
      rw [hc] at hc'
      obtain rfl := Option.some.inj hc'
      have := i1 p hp
      rw [List.countP_cons, List.length_cons]
      rcases hcase with ⟨a1, a2, _⟩ | ⟨a1, a2⟩
      · rw [if_pos (by simp [Score.hit, a1])]
        push_cast
        omega
      · rw [if_neg (by simp [Score.hit, a1])]
        push_cast
        omega
    · intro s hs hty
      rcases hcase with ⟨_, _, a3, _⟩ | ⟨a1, _⟩
      · have := hbd s hs
        have := hok.hx
        omega
      · exact absurd hty a1
    · intro i hi1 hi2
      by_cases hix : i = x
      · exact ⟨c, by simp, by rw [hok.hx, hix]⟩
      · obtain ⟨s, hs, he⟩ := i3 i hi1 (by omega)
        exact ⟨s, by simp [hs], he⟩
    · intro i hi1 hi2
      by_cases hix : i = y
      · exact ⟨c, by simp, by rw [hok.hy, hix]⟩
      · obtain ⟨s, hs, he⟩ := i4 i hi1 (by omega)
        exact ⟨s, by simp [hs], he⟩

end

/-- The cells of a trace before a coordinate. -/
def before (q : Score → Nat) (ss : List Score) (i : Nat) : Nat := 1 + ss.countP (fun s => decide (q s < i))

theorem before_lt {q : Score → Nat} {ss : List Score} {i j : Nat} (hij : i < j) (h : ∃ s ∈ ss, q s = i) :
    before q ss i < before q ss j := by
  unfold before
  apply Nat.add_lt_add_left
  obtain ⟨s, hs, he⟩ := h
  induction ss with
  | nil => cases hs
  | cons a ss ih =>
    rw [List.countP_cons, List.countP_cons]
    have hle : ss.countP (fun s => decide (q s < i)) ≤ ss.countP (fun s => decide (q s < j)) := by
      apply List.countP_mono_left
      intro x _ hx
      simp only [decide_eq_true_eq] at hx ⊢
      omega
    simp only [decide_eq_true_eq]
    rcases List.mem_cons.mp hs with rfl | hs
    · rw [if_neg (by omega), if_pos (by omega)]
      omega
    · have := ih hs
      split <;> split <;> omega

theorem before_le {q : Score → Nat} {ss : List Score} {i : Nat} (h : ∃ s ∈ ss, q s = i) : before q ss i ≤ ss.length := by
  have h1 := before_lt (j := i + 1) (Nat.lt_succ_self i) h
  have h2 : before q ss (i + 1) ≤ 1 + ss.length := Nat.add_le_add_left (List.countP_le_length) 1
  omega

/-- A match separates the cells before it from those after it. -/
theorem before_match {ss : List Score} (h1 : ss.Pairwise (fun s s' => s'.y ≤ s.y ∧ s'.x ≤ s.x ∧ (s.type = .match → s'.y < s.y)))
    (h2 : ss.Pairwise (fun s s' => s.type = .match → s'.x < s.x)) {c : Score} (hc : c ∈ ss) (hty : c.type = .match) :
    before Score.x ss c.x = before Score.y ss c.y := by
  have key : ∀ s ∈ ss, s.x < c.x ↔ s.y < c.y := by
    induction ss with
    | nil => cases hc
    | cons a ss ih =>
      rw [List.pairwise_cons] at h1 h2
      rcases List.mem_cons.mp hc with rfl | hc'
      · intro s hs
        rcases List.mem_cons.mp hs with rfl | hs
        · simp
        · have := h2.1 s hs hty
          have := (h1.1 s hs).2.2 hty
          omega
      · intro s hs
        rcases List.mem_cons.mp hs with rfl | hs
        · have := h1.1 c hc'
          omega
        · exact ih h1.2 h2.2 hc' s hs
  unfold before
  congr 1
  apply List.countP_congr
  intro s hs
  simp [key s hs]

/-! ### The step -/

section
variable {ts : TopoFn} {ti : TokenIndex} {s s' : AlignSt} {ps : List WPath} {w : Witness} {P : WPath} {rkf : VId → Nat}
  {o : List VId} {m : Nat} {r : Ranking} {cube : Cube} {cells : List (List Score)} {al : Dict Token VId}
  {pf : Option PFilter}

/-- Every aligned token comes from a match of the trace. -/
theorem StepOf.source (L : Layout ti) (hs : AInv ti s ps) (hw : ti.ws[ps.length]? = some w)
    (hst : StepOf ts pf ti s ps w P rkf o m r cube cells al) {ss : List Score} {y x : Nat} (htr : Trace cells y x ss)
    (hal : alignLoop cube ss [] [] = .ok al) {t : Token} {v : VId} (hd : dget al t = some v) :
    ∃ c ∈ ss, c.type = .match ∧ 1 ≤ c.y ∧ w.tokens[c.y - 1]? = some t ∧ rkf v = c.x ∧ v ∈ s.g.vertices ∧ v ≠ startV ∧
      v ≠ endV := by
  have hnd := L.tokens_nodup hw
  have hsrcs : ∀ c t v, AlSrc cube c t v → ∃ i : Nat, w.tokens[i]? = some t ∧ c.y = i + 1 ∧ rkf v = c.x ∧ v ∈ s.g.vertices ∧
      v ≠ startV ∧ v ≠ endV := by
    rintro c t v ⟨_, hd⟩
    obtain ⟨i, h1, h2, h3, h4⟩ := hst.hit hs hd
    exact ⟨i, h1, by omega, by omega, h4⟩
  obtain ⟨k1, _⟩ := alignLoop_inv cube ss [] [] al hal (by simp [dget]) (by simp [dget]) (by simp [dget])
    ((htr.pairwise hst.table).2.imp (by
      rintro c c' h2 t v t' v' g1 g2 rfl
      obtain ⟨i, a1, a2, _⟩ := hsrcs c t v g1
      obtain ⟨i', b1, b2, _⟩ := hsrcs c' t v' g2
      have := h2.2.2 g1.1
      obtain ⟨q1, q2⟩ := List.getElem?_eq_some_iff.mp a1
      obtain ⟨q3, q4⟩ := List.getElem?_eq_some_iff.mp b1
      have := (hnd.getElem_inj_iff (hi := q1) (hj := q3)).mp (by rw [q2, q4])
      omega))
  rcases k1 t v hd with h | ⟨c, hc, h⟩
  · cases h
  · obtain ⟨i, a1, a2, a3, a4⟩ := hsrcs c t v h
    exact ⟨c, hc, h.1, by omega, by rw [a2]; exact a1, a3, a4⟩

/-- The graph after a step fits into as many columns as the traced path has steps, and the score counts what is shared. -/
theorem StepOf.fits (L : Layout ti) (hs : AInv ti s ps) (hne : ps ≠ []) (hw : ti.ws[ps.length]? = some w)
    (hs' : AInv ti s' (ps ++ [P])) (hst : StepOf ts pf ti s ps w P rkf o m r cube cells al)
    (hM : ∀ y x, ¬ (cube.rel y x = true ∧ cube.rel (y + 1) x = true)) : ∃ (len : Nat) (f : VId → Nat),
      f startV = 0 ∧ f endV = len + 1 ∧ (∀ e ∈ s'.g.pairs, f e.1 < f e.2) ∧
      ∀ steps, endOf steps (0, 0) = (m - 2, w.tokens.length) →
        pathScore cube.rel steps (0, 0) ≤ 2 * ((P.inner.filter (· ∈ s.g.vertices)).length : Int) - len := by
  have hneg := hst.neg hs
  have hedge : ∀ p ∈ s.g.pairs, rkf p.1 < rkf p.2 := fun p hp => hst.rank.isRank.lt hs.ginv.wf hp
  have hbd := hs.ginv.rank_bounds hne hedge
  have hem := hst.rank.lt_m hs.ginv.end_mem
  have hse := (hbd endV hs.ginv.end_mem).1 (by decide)
  have hwid : rankCount s.g r - 1 = m - 2 := by rw [rankCount_eq hst.rank]; omega
  obtain ⟨ss, htr, hal⟩ := hst.trace
  rw [hwid] at htr
  obtain ⟨b1, b2, b3, b4⟩ := htr.balance hst.table hneg hM
  have hp2 := (htr.pairwise hst.table).2
  have hinner : ∀ (i : Nat) (v : VId), P.inner[i]? = some v → ∃ t, w.tokens[i]? = some t ∧
      (dget al t = some v ∨ (dget al t = none ∧ s.g.next ≤ v)) := by
    intro i v hv
    rw [hst.path] at hv
    simp only [WPath.inner, List.getElem?_map] at hv
    obtain ⟨⟨v', us⟩, hq, rfl⟩ := Option.map_eq_some_iff.mp hv
    obtain ⟨t, ht, rfl, hc⟩ := newSegs_mem (List.mem_of_getElem? hq)
    have e := congrArg (fun l => l[i]?) (newSegs_snd al s.g.next w.tokens)
    simp only [List.getElem?_map, hq, Option.map_some] at e
    obtain ⟨t', h1, h2⟩ := Option.map_eq_some_iff.mp e.symm
    have : t' = t := by simpa using h2
    subst this
    refine ⟨t', h1, ?_⟩
    rcases hc with hc | ⟨hc, hc', _⟩
    · exact Or.inl hc
    · exact Or.inr ⟨hc, hc'⟩
  have hPm : P ∈ ps ++ [P] := by simp
  have hnd : P.inner.Nodup := hs'.ginv.inner_nodup hPm
  obtain ⟨f, hf⟩ : ∃ f : VId → Nat, f = fun v => if v = startV then 0 else if v = endV then ss.length + 1 else
    if v ∈ s.g.vertices then before Score.x ss (rkf v) else before Score.y ss (P.inner.idxOf v + 1) := ⟨_, rfl⟩
  have f0 : f startV = 0 := by rw [hf]; simp
  have f1 : f endV = ss.length + 1 := by rw [hf]; simp [show endV ≠ startV by decide]
  have fold : ∀ v ∈ s.g.vertices, v ≠ startV → v ≠ endV → f v = before Score.x ss (rkf v) := by
    intro v hv h1 h2
    rw [hf]
    simp [h1, h2, hv]
  have hrange : ∀ v ∈ s.g.vertices, v ≠ startV → v ≠ endV → ∃ c ∈ ss, c.x = rkf v := by
    intro v hv h1 h2
    have := (hbd v hv).1 h1
    have := (hbd v hv).2 h2
    exact b3 (rkf v) (by omega) (by omega)
  have fnew : ∀ (i : Nat) (v : VId), P.inner[i]? = some v → f v = before Score.y ss (i + 1) ∧ ∃ c ∈ ss, c.y = i + 1 := by
    intro i v hv
    obtain ⟨t, ht, hc⟩ := hinner i v hv
    refine ⟨?_, b4 (i + 1) (by omega) (by have := (List.getElem?_eq_some_iff.mp ht).1; omega)⟩
    rcases hc with hc | ⟨_, hc⟩
    · obtain ⟨c, hcm, hty, h1, h2, h3, h4, h5, h6⟩ := hst.source L hs hw htr hal hc
      rw [fold v h4 h5 h6, h3, before_match hp2 b2 hcm hty]
      obtain ⟨q1, q2⟩ := List.getElem?_eq_some_iff.mp ht
      obtain ⟨q3, q4⟩ := List.getElem?_eq_some_iff.mp h2
      have := ((L.tokens_nodup hw).getElem_inj_iff (hi := q1) (hj := q3)).mp (by rw [q2, q4])
      rw [show c.y = i + 1 by omega]
    · have hv1 : v ∉ s.g.vertices := fun h => by have := hs.ginv.fresh v h; omega
      have hv2 : v ≠ startV := by rintro rfl; exact hv1 hs.ginv.start_mem
      have hv3 : v ≠ endV := by rintro rfl; exact hv1 hs.ginv.end_mem
      have hidx : P.inner.idxOf v = i := by
        obtain ⟨q1, q2⟩ := List.getElem?_eq_some_iff.mp hv
        rw [← q2]
        exact hnd.idxOf_getElem i q1
      rw [hf]
      simp [hv1, hv2, hv3, hidx]
  refine ⟨ss.length, f, f0, f1, ?_, ?_⟩
  · rintro ⟨u, v⟩ he
    obtain ⟨q, hq, hcon⟩ := (hs'.ginv.edges_iff u v).mp he
    simp only
    rcases List.mem_append.mp hq with hq | hq
    · have he' := (hs.ginv.edges_iff u v).mpr ⟨q, hq, hcon⟩
      obtain ⟨hu, hv⟩ := hs.ginv.wf.ends _ he'
      have hlt := hedge _ he'
      simp only at hu hv hlt
      have hv0 : v ≠ startV := by
        rintro rfl
        by_cases h : u = startV
        · subst h; omega
        · have := (hbd u hu).1 h; omega
      have hu1 : u ≠ endV := by
        rintro rfl
        by_cases h : v = endV
        · subst h; omega
        · have := (hbd v hv).2 h; omega
      by_cases hu0 : u = startV
      · subst hu0
        rw [f0]
        by_cases hv1 : v = endV
        · subst hv1; rw [f1]; omega
        · rw [fold v hv hv0 hv1]; unfold before; omega
      · rw [fold u hu hu0 hu1]
        by_cases hv1 : v = endV
        · subst hv1
          rw [f1]
          have := before_le (hrange u hu hu0 hu1)
          omega
        · rw [fold v hv hv0 hv1]
          exact before_lt hlt (hrange u hu hu0 hu1)
    · simp only [List.mem_singleton] at hq
      subst hq
      have hpw : q.path.Pairwise (fun a b => f a < f b) := by
        unfold WPath.path
        refine List.pairwise_cons.mpr ⟨?_, List.pairwise_append.mpr ⟨?_, by simp, ?_⟩⟩
        · intro a ha
          rw [f0]
          rcases List.mem_append.mp ha with ha | ha
          · obtain ⟨i, hi⟩ := List.getElem?_of_mem ha
            rw [(fnew i a hi).1]; unfold before; omega
          · simp only [List.mem_singleton] at ha
            subst ha; rw [f1]; omega
        · rw [List.pairwise_iff_getElem]
          intro i j hi hj hij
          obtain ⟨e1, e2⟩ := fnew i _ (List.getElem?_eq_getElem hi)
          obtain ⟨e3, _⟩ := fnew j _ (List.getElem?_eq_getElem hj)
          rw [e1, e3]
          exact before_lt (by omega) e2
        · intro a ha b hb
          simp only [List.mem_singleton] at hb
          subst hb
          obtain ⟨i, hi⟩ := List.getElem?_of_mem ha
          obtain ⟨e1, e2⟩ := fnew i a hi
          rw [e1, f1]
          have := before_le e2
          omega
      have := hpw.sublist hcon.sublist
      simpa using this
  · intro steps hend
    obtain ⟨c, hc⟩ := hst.table.exists_cell (y := w.tokens.length) (x := m - 2) (by omega) (by
      have := hst.width; omega)
    have h1 := hst.table.path_le hneg steps c (by rw [hend]; exact hc)
    rw [b1 c hc] at h1
    have h2 : ss.countP Score.hit ≤ (P.inner.filter (· ∈ s.g.vertices)).length := by
      rw [List.countP_eq_length_filter]
      have := nodup_length_le (l := (ss.filter Score.hit).map Score.x)
        (m := (P.inner.filter (· ∈ s.g.vertices)).map rkf) ?_ ?_
      · simpa using this
      · unfold List.Nodup
        rw [List.pairwise_map]
        refine ((List.Pairwise.filter _ b2).imp_of_mem ?_)
        intro a b ha _ h
        have hta : a.type = .match := by simpa [Score.hit] using (List.mem_filter.mp ha).2
        have := h hta
        omega
      · intro a ha
        obtain ⟨d, hd, rfl⟩ := List.mem_map.mp ha
        obtain ⟨hd1, hd2⟩ := List.mem_filter.mp hd
        obtain ⟨v, t, g1, g2, g3, g4, g5⟩ := hst.all L hs hw htr hal b2 d hd1 (by simpa [Score.hit] using hd2)
        refine List.mem_map.mpr ⟨v, List.mem_filter.mpr ⟨?_, by simpa using g4⟩, g3⟩
        rw [hst.path]
        obtain ⟨v', hv'⟩ := newSegs_of_mem (al := al) (n := s.g.next) (List.mem_of_getElem? g1)
        obtain ⟨t2, _, e, hc⟩ := newSegs_mem hv'
        injection e with e _
        subst e
        rcases hc with hc | ⟨hc, _⟩
        · rw [g5] at hc
          obtain rfl := Option.some.inj hc
          exact List.mem_map.mpr ⟨_, hv', rfl⟩
        · rw [g5] at hc; cases hc
    omega

end

/-! ### Arrangements and paths -/

/-- The path of an arrangement. -/
def stepsOf : List Pairing → List Step
  | [] => []
  | (some _, some _) :: l => .diag :: stepsOf l
  | (some _, none) :: l => .right :: stepsOf l
  | (none, some _) :: l => .down :: stepsOf l
  | (none, none) :: l => stepsOf l

theorem stepsOf_end : ∀ (cols : List Pairing) (x y : Nat), endOf (stepsOf cols) (x, y) =
    (x + (cols.filterMap Prod.fst).length, y + (cols.filterMap Prod.snd).length)
  | [], x, y => rfl
  | (some _, some _) :: l, x, y => by
    simp only [stepsOf, endOf, Step.move, stepsOf_end l, List.filterMap_cons, List.length_cons]
    congr 1 <;> omega
  | (some _, none) :: l, x, y => by
    simp only [stepsOf, endOf, Step.move, stepsOf_end l, List.filterMap_cons, List.length_cons]
    congr 1
    omega
  | (none, some _) :: l, x, y => by
    simp only [stepsOf, endOf, Step.move, stepsOf_end l, List.filterMap_cons, List.length_cons]
    congr 1
    omega
  | (none, none) :: l, x, y => by
    simp only [stepsOf, stepsOf_end l, List.filterMap_cons]

/-- An arrangement scores no more than its path. -/
theorem balance_le (M : Nat → Nat → Bool) : ∀ (cols : List Pairing) (x y : Nat), (∀ c ∈ cols, c ≠ (none, none)) →
    (∀ (i j : Nat) (a : Str), (cols.filterMap Prod.fst)[i]? = some a → (cols.filterMap Prod.snd)[j]? = some a → M (y + j) (x + i) = true) →
    balance cols ≤ pathScore M (stepsOf cols) (x, y)
  | [], x, y, _, _ => by simp [balance, stepsOf, pathScore]
  | (some a, some b) :: l, x, y, hf, h => by
    have ih := balance_le M l (x + 1) (y + 1) (fun c hc => hf c (by simp [hc])) (by
      intro i j a' h1 h2
      have := h (i + 1) (j + 1) a' (by simpa using h1) (by simpa using h2)
      rw [show y + 1 + j = y + (j + 1) by omega, show x + 1 + i = x + (i + 1) by omega]
      exact this)
    simp only [balance, List.map_cons, List.sum_cons, stepsOf, pathScore, Step.move, Step.score] at ih ⊢
    by_cases hab : a = b
    · subst hab
      have := h 0 0 a (by simp) (by simp)
      rw [Nat.add_zero, Nat.add_zero] at this
      rw [if_pos rfl, if_pos this]
      omega
    · rw [if_neg (by simpa using hab)]
      split <;> omega
  | (some a, none) :: l, x, y, hf, h => by
    have ih := balance_le M l (x + 1) y (fun c hc => hf c (by simp [hc])) (by
      intro i j a' h1 h2
      have := h (i + 1) j a' (by simpa using h1) (by simpa using h2)
      rw [show x + 1 + i = x + (i + 1) by omega]
      exact this)
    simp only [balance, List.map_cons, List.sum_cons, stepsOf, pathScore, Step.move, Step.score] at ih ⊢
    rw [if_neg (by simp)]
    omega
  | (none, some b) :: l, x, y, hf, h => by
    have ih := balance_le M l x (y + 1) (fun c hc => hf c (by simp [hc])) (by
      intro i j a' h1 h2
      have := h i (j + 1) a' (by simpa using h1) (by simpa using h2)
      rw [show y + 1 + j = y + (j + 1) by omega]
      exact this)
    simp only [balance, List.map_cons, List.sum_cons, stepsOf, pathScore, Step.move, Step.score] at ih ⊢
    rw [if_neg (by simp)]
    split <;> omega
  | (none, none) :: l, x, y, hf, _ => absurd rfl (hf (none, none) (by simp))

/-! ### The table -/

/-- The string of a cell with one token. -/
def cellStr (c : Option (List Token)) : Option Str := c.bind (fun ts => ts.head?.map Token.str)

section
variable {cc : CharClass} {ws : List Witness} {g : VGraph} {ps : List WPath} {rk : Ranking} {rkf : VId → Nat}
  {ord : List VId} {m : Nat}

/-- A vertex can be ranked no higher than in any other increasing numbering of the vertices from 0. -/
theorem IsRank.le (wf : WF g) (h : IsRank g rkf) {f : VId → Nat} (hf : ∀ e ∈ g.pairs, f e.1 < f e.2) :
    ∀ (n : Nat) (v : VId), v ∈ g.vertices → rkf v = n → n ≤ f v
  | 0, _, _, _ => Nat.zero_le _
  | n + 1, v, hv, hr => by
    obtain ⟨u, hu, he⟩ := h.pred hv (by omega)
    have := IsRank.le wf h hf n u (wf.ends _ hu).1 (by omega)
    have := hf _ hu
    simp only at this
    omega

/-- The columns of the table lie between the ranks of start and end. -/
theorem Collated.columns_le {seg : Bool} (C : Collated cc ws seg g ps rk rkf ord m) (hne : ps ≠ []) :
    (mkTable ws g rk).columns.length ≤ rkf endV - 1 := by
  rw [C.byRank.columns, ← List.length_map (f := some)]
  have hedge : ∀ p ∈ g.pairs, rkf p.1 < rkf p.2 := fun p hp => C.rank.isRank.lt C.ginv.wf hp
  have hbd := C.ginv.rank_bounds hne hedge
  rw [List.length_map, List.length_filterMap_eq_countP, List.countP_eq_length_filter]
  have := nodup_length_le (l := (List.range m).filter
    (fun k => (colAt g ws.length (fun k => ord.filter (fun v => rkf v = k)) k).isSome)) (m := List.range' 1 (rkf endV - 1))
    (List.nodup_range.filter _) ?_
  · simpa using this
  · intro k hk
    obtain ⟨hk1, hk2⟩ := List.mem_filter.mp hk
    obtain ⟨v, hv, hi⟩ := colAt_isSome.mp (Option.isSome_iff_exists.mp hk2)
    obtain ⟨hvm, hvk⟩ := (C.byRank.mem k (List.mem_range.mp hk1) v).mp hv
    simp only [inside, decide_eq_true_eq] at hi
    have := (hbd v hvm).1 hi.1
    have := (hbd v hvm).2 hi.2
    rw [List.mem_range'_1]
    omega

/-- Cells have one token without segmentation. -/
theorem Collated.cellStr (C : Collated cc ws false g ps rk rkf ord m) (hs : ∀ w ∈ ws, w.sigil ≠ []) {w : Witness} (hw : w ∈ ws)
    {c : Column} (hc : c ∈ (mkTable ws g rk).columns) :
    (dget c.tokens w.sigil).map (List.map Token.str) = (CollateX.cellStr (dget c.tokens w.sigil)).map (fun a => [a]) := by
  obtain ⟨k, hk⟩ := List.getElem?_of_mem hw
  obtain ⟨p, _, _, _, h3⟩ := C.row hk (hs w hw)
  obtain ⟨q, hq, hqw, _⟩ := C.at hk
  cases hd : dget c.tokens w.sigil with
  | none => rfl
  | some ts =>
    obtain ⟨j, hj⟩ := List.getElem?_of_mem hc
    obtain ⟨r, hr, hcol⟩ := C.col hj
    have hqm := List.mem_of_getElem? hq
    rw [← hqw] at hd
    obtain ⟨v, _, hv⟩ := C.byRank.col_entry C.ginv (C.sigil_ne hs) hr hcol hqm hd
    obtain ⟨t, ht⟩ := C.single rfl q hqm _ hv
    simp only at ht
    subst ht
    rfl

/-- The strings of a row without segmentation. -/
theorem Collated.rowStrs (C : Collated cc ws false g ps rk rkf ord m) {k : Nat} {w : Witness} (hw : ws[k]? = some w)
    (hs : w.sigil ≠ []) :
    (mkTable ws g rk).columns.filterMap (fun c => CollateX.cellStr (dget c.tokens w.sigil)) = w.tokens.map Token.str := by
  obtain ⟨p, hp, h1, h2, h3⟩ := C.row hw hs
  have hsingle := C.single rfl p (List.mem_of_getElem? hp)
  have e : ∀ l : List Column, l.filterMap (fun c => CollateX.cellStr (dget c.tokens w.sigil)) =
      ((l.map (fun c => dget c.tokens w.sigil)).filterMap id).filterMap (fun ts => ts.head?.map Token.str) := by
    intro l
    induction l with
    | nil => rfl
    | cons c l ih =>
      rw [List.filterMap_cons, List.map_cons, List.filterMap_cons, ih]
      cases dget c.tokens w.sigil with
      | none => rfl
      | some ts =>
        simp only [id, List.filterMap_cons, CollateX.cellStr, Option.bind_some]
  rw [e, h3, ← h2]
  have key : ∀ l : List (VId × List Token), (∀ q ∈ l, ∃ t, q.2 = [t]) →
      (l.map Prod.snd).filterMap (fun ts => ts.head?.map Token.str) = (l.flatMap Prod.snd).map Token.str := by
    intro l
    induction l with
    | nil => intro _; rfl
    | cons q l ih =>
      intro h
      obtain ⟨t, ht⟩ := h q (by simp)
      rw [List.map_cons, List.flatMap_cons, ht]
      simp [ih (fun q hq => h q (by simp [hq]))]
  exact key _ hsingle

theorem balance_eq (cols : List Pairing) : balance cols = 2 * (cols.countP (fun c => decide (c.1 = c.2)) : Int) - cols.length := by
  induction cols with
  | nil => rfl
  | cons c cols ih =>
    unfold balance at ih ⊢
    rw [List.map_cons, List.sum_cons, ih, List.countP_cons, List.length_cons]
    by_cases h : c.1 = c.2
    · rw [if_pos h, if_pos (by simpa using h)]; push_cast; omega
    · rw [if_neg h, if_neg (by simpa using h)]; push_cast; omega

/-- The ranks with equal strings in the column of two witnesses. -/
def agreeing (g : VGraph) (a b : Witness) (ord : List VId) (rkf : VId → Nat) (m : Nat) : List Nat :=
  (List.range m).filter (fun k =>
    ((colAt g [a, b].length (fun k => ord.filter (fun v => rkf v = k)) k).map (fun c =>
      decide (CollateX.cellStr (dget c.tokens a.sigil) = CollateX.cellStr (dget c.tokens b.sigil)))).getD false)

theorem Collated.agreeing_length {a b : Witness} {p q : WPath} (C : Collated cc [a, b] false g [p, q] rk rkf ord m) :
    ((mkTable [a, b] g rk).columns.map (fun c => (CollateX.cellStr (dget c.tokens a.sigil),
        CollateX.cellStr (dget c.tokens b.sigil)))).countP (fun c => decide (c.1 = c.2)) = (agreeing g a b ord rkf m).length := by
  rw [List.countP_map, C.byRank.columns, List.countP_filterMap, List.countP_eq_length_filter]
  rfl

/-- Every shared vertex gives a column with equal strings. -/
theorem Collated.shared_agree {a b : Witness} {p q : WPath} (C : Collated cc [a, b] false g [p, q] rk rkf ord m)
    (hs : ∀ w ∈ [a, b], w.sigil ≠ []) : ((q.inner.filter (· ∈ p.inner)).map rkf).Nodup ∧
      ∀ k ∈ (q.inner.filter (· ∈ p.inner)).map rkf, k ∈ agreeing g a b ord rkf m := by
  obtain ⟨p', hp', hpa, _⟩ := C.at (k := 0) (w := a) rfl
  obtain ⟨q', hq', hqb, _⟩ := C.at (k := 1) (w := b) rfl
  obtain rfl : p = p' := by simpa using hp'
  obtain rfl : q = q' := by simpa using hq'
  have hpm : p ∈ [p, q] := by simp
  have hqm : q ∈ [p, q] := by simp
  have hinc := C.inner_increasing hqm
  constructor
  · unfold List.Nodup
    rw [List.pairwise_map]
    exact (List.Pairwise.filter _ hinc).imp (by intro u v h; omega)
  · intro k hk
    obtain ⟨v, hv, rfl⟩ := List.mem_map.mp hk
    obtain ⟨hvq, hvp⟩ := List.mem_filter.mp hv
    simp only [decide_eq_true_eq] at hvp
    obtain ⟨⟨v', tp⟩, h1, rfl⟩ := List.mem_map.mp hvp
    obtain ⟨⟨v2, tq⟩, h2, h2'⟩ := List.mem_map.mp hvq
    simp only at h2'
    subst h2'
    have hr := C.byRank.lt v2 (C.ginv.segs_in p hpm _ h1).1
    have c1 := (C.byRank.cell C.ginv hpm (C.sigil_ne hs _ hpm) (C.inner_increasing hpm) [a, b].length hr tp).mpr ⟨_, h1, rfl, rfl⟩
    have c2 := (C.byRank.cell C.ginv hqm (C.sigil_ne hs _ hqm) hinc [a, b].length hr tq).mpr ⟨_, h2, rfl, rfl⟩
    obtain ⟨c, hc, d1⟩ := Option.bind_eq_some_iff.mp c1
    rw [hc] at c2
    simp only [Option.bind_some] at c2
    refine List.mem_filter.mpr ⟨List.mem_range.mpr hr, ?_⟩
    rw [hc]
    simp only [Option.map_some, Option.getD_some, decide_eq_true_eq]
    rw [← hpa, ← hqb, d1, c2]
    have hu := C.uniform p hpm q hqm v2 tp tq h1 h2
    simp only [CollateX.cellStr, Option.bind_some]
    rw [← List.head?_map, ← List.head?_map, hu]

theorem Collated.shared_le {a b : Witness} {p q : WPath} (C : Collated cc [a, b] false g [p, q] rk rkf ord m)
    (hs : ∀ w ∈ [a, b], w.sigil ≠ []) : (q.inner.filter (· ∈ p.inner)).length ≤
      ((mkTable [a, b] g rk).columns.map (fun c => (CollateX.cellStr (dget c.tokens a.sigil),
        CollateX.cellStr (dget c.tokens b.sigil)))).countP (fun c => decide (c.1 = c.2)) := by
  obtain ⟨h1, h2⟩ := C.shared_agree hs
  rw [C.agreeing_length]
  have := nodup_length_le h1 h2
  rwa [List.length_map] at this

end

end CollateX
