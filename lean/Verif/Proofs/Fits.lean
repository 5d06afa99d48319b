import Verif.Proofs.Best
/-
The balance of the traced path when a column may match several tokens in a row, and the columns it needs.
-/

namespace CollateX
open Spec

section
variable {cube : Cube} {width h : Nat} {cells : List (List Score)}

/-- A match scores a point, any other cell loses one. A match is reached diagonally, or from above if its column matches the token before,
too. -/
theorem TableEq.type_any (ht : TableEq cube width h cells) (hneg : ∀ x : Nat, cube.has (-1) (x : Int) = false) {y x : Nat} {c : Score}
    (hc : cellOf cells y x = some c) (h0 : x ≠ 0 ∨ y ≠ 0) : ∃ p, cellOf cells c.py c.px = some p ∧
      ((c.type = .match ∧ c.g = p.g + 1 ∧ c.py + 1 = y ∧ (c.px + 1 = x ∨ (c.px = x ∧ 2 ≤ y ∧ 1 ≤ x ∧ cube.rel (y - 2) (x - 1) = true))) ∨
        (c.type ≠ .match ∧ c.g = p.g - 1)) := by
  have hb := ht.bounds hc
  match y, x with
  | 0, 0 => simp at h0
  | 0, x + 1 =>
    obtain ⟨p, hp⟩ := ht.exists_cell (y := 0) (x := x) (by omega) (by omega)
    have hpo := ht.cell_ok 0 x p hp
    have h2 := ht.row0 x c p hc hp
    subst h2
    refine ⟨p, ?_, Or.inr ⟨determineType_ne _ _ _, rfl⟩⟩
    simp only [gap, hpo.hx, hpo.hy]; exact hp
  | y + 1, 0 =>
    obtain ⟨p, hp⟩ := ht.exists_cell (y := y) (x := 0) (by omega) (by omega)
    have hpo := ht.cell_ok y 0 p hp
    have h2 := ht.col0 y c p hc hp
    subst h2
    refine ⟨p, ?_, Or.inr ⟨determineType_ne _ _ _, rfl⟩⟩
    simp only [gap, hpo.hx, hpo.hy]; exact hp
  | y + 1, x + 1 =>
    obtain ⟨ul, hul⟩ := ht.exists_cell (y := y) (x := x) (by omega) (by omega)
    obtain ⟨left, hleft⟩ := ht.exists_cell (y := y + 1) (x := x) (by omega) (by omega)
    obtain ⟨up, hup⟩ := ht.exists_cell (y := y) (x := x + 1) (by omega) (by omega)
    have h1 := ht.cell_ok _ _ ul hul
    have h2 := ht.cell_ok _ _ left hleft
    have h3 := ht.cell_ok _ _ up hup
    have h4 := ht.inner y x c ul left up hc hul hleft hup
    rcases max3_cases (scoreCell cube (x + 1) (y + 1) ul) (gap (x + 1) (y + 1) left) (fromUpper cube (y + 1) (x + 1) up) with he | he | he
    · rw [he] at h4
      subst h4
      unfold scoreCell
      split
      · exact ⟨ul, by simp only [h1.hx, h1.hy]; exact hul, Or.inl ⟨rfl, rfl, by simp only [h1.hy], Or.inl (by simp only [h1.hx])⟩⟩
      · exact ⟨ul, by simp only [h1.hx, h1.hy]; exact hul, Or.inr ⟨by simp, rfl⟩⟩
    · rw [he] at h4
      subst h4
      exact ⟨left, by simp only [gap, h2.hx, h2.hy]; exact hleft, Or.inr ⟨determineType_ne _ _ _, rfl⟩⟩
    · rw [he] at h4
      subst h4
      unfold fromUpper
      split
      · rename_i q1
        unfold scoreCell
        split
        · have e2 : ((x + 1 : Nat) : Int) - 1 = (x : Int) := by omega
          have e3 : ((y + 1 : Nat) : Int) - 2 = (y : Int) - 1 := by omega
          rw [e2, e3] at q1
          refine ⟨up, by simp only [h3.hx, h3.hy]; exact hup, Or.inl ⟨rfl, rfl, by simp only [h3.hy], Or.inr ⟨by simp only [h3.hx], ?_⟩⟩⟩
          cases y with
          | zero =>
            rw [show ((0 : Nat) : Int) - 1 = -1 by omega, hneg x] at q1
            cases q1
          | succ y =>
            rw [show ((y + 1 : Nat) : Int) - 1 = (y : Int) by omega] at q1
            exact ⟨by omega, by omega, q1⟩
        · exact ⟨up, by simp only [h3.hx, h3.hy]; exact hup, Or.inr ⟨by simp, rfl⟩⟩
      · exact ⟨up, by simp only [gap, h3.hx, h3.hy]; exact hup, Or.inr ⟨determineType_ne _ _ _, rfl⟩⟩

/-- What the trace says about matches. -/
theorem Trace.balance_any (ht : TableEq cube width h cells) (hneg : ∀ x : Nat, cube.has (-1) (x : Int) = false) {y x : Nat} {ss : List Score}
    (htr : Trace cells y x ss) :
    (∀ c, cellOf cells y x = some c → c.g = 2 * (ss.countP Score.hit : Int) - ss.length) ∧
      ss.Pairwise (fun s s' => s.type = .match → s'.x < s.x ∨ (2 ≤ s.y ∧ 1 ≤ s.x ∧ cube.rel (s.y - 2) (s.x - 1) = true)) ∧
      (∀ i, 1 ≤ i → i ≤ x → ∃ s ∈ ss, s.x = i) ∧ (∀ i, 1 ≤ i → i ≤ y → ∃ s ∈ ss, s.y = i) := by
  induction htr with
  | origin =>
    refine ⟨?_, by simp, by intro i h1 h2; omega, by intro i h1 h2; omega⟩
    intro c hc
    rw [ht.origin] at hc
    obtain rfl := Option.some.inj hc
    rfl
  | @step y x c ss h0 hc htr ih =>
    obtain ⟨i1, i2, i3, i4⟩ := ih
    have hok := ht.cell_ok _ _ c hc
    obtain ⟨p, hp, hcase⟩ := ht.type_any hneg hc h0
    have hbd := (htr.pairwise ht).1
    have hpar := hok.parent h0
    refine ⟨?_, List.pairwise_cons.mpr ⟨?_, i2⟩, ?_, ?_⟩
    · intro c' hc'
      rw [hc] at hc'
      obtain rfl := Option.some.inj hc'
      have := i1 p hp
      rw [List.countP_cons, List.length_cons]
      rcases hcase with ⟨a1, a2, _⟩ | ⟨a1, a2⟩
      · rw [if_pos (by simp [Score.hit, a1])]
        push_cast
        omega
      · rw [if_neg (by simp [Score.hit, a1])]
        push_cast
        omega
    · intro s hs hty
      rcases hcase with ⟨_, _, a3, a4⟩ | ⟨a1, _⟩
      · have := hbd s hs
        have e1 := hok.hx
        have e2 := hok.hy
        rcases a4 with a4 | ⟨a4, a5, a6, a7⟩
        · left; omega
        · right; rw [e1, e2]; exact ⟨a5, a6, a7⟩
      · exact absurd hty a1
    · intro i hi1 hi2
      by_cases hix : i = x
      · exact ⟨c, by simp, by rw [hok.hx, hix]⟩
      · obtain ⟨s, hs, he⟩ := i3 i hi1 (by omega)
        exact ⟨s, by simp [hs], he⟩
    · intro i hi1 hi2
      by_cases hix : i = y
      · exact ⟨c, by simp, by rw [hok.hy, hix]⟩
      · obtain ⟨s, hs, he⟩ := i4 i hi1 (by omega)
        exact ⟨s, by simp [hs], he⟩

end

theorem before_mono {q : Score → Nat} {ss : List Score} {i j : Nat} (hij : i ≤ j) : before q ss i ≤ before q ss j := by
  unfold before
  apply Nat.add_le_add_left
  apply List.countP_mono_left
  intro x _ hx
  simp only [decide_eq_true_eq] at hx ⊢
  omega

theorem countP_lt {α : Type} {p q : α → Bool} : ∀ {l : List α}, (∀ x ∈ l, p x = true → q x = true) → (∃ x ∈ l, p x = false ∧ q x = true) →
    l.countP p < l.countP q
  | [], _, h => by obtain ⟨x, hx, _⟩ := h; cases hx
  | a :: l, hpq, ⟨x, hx, h1, h2⟩ => by
    have hle : l.countP p ≤ l.countP q := List.countP_mono_left (fun x hx => hpq x (by simp [hx]))
    rw [List.countP_cons, List.countP_cons]
    rcases List.mem_cons.mp hx with rfl | hx
    · rw [if_neg (by simp [h1]), if_pos h2]; omega
    · have := countP_lt (p := p) (q := q) (l := l) (fun x hx => hpq x (by simp [hx])) ⟨x, hx, h1, h2⟩
      have := hpq a (by simp)
      split
      · rw [if_pos (this (by assumption))]; omega
      · split <;> omega

/-- A match lies among the cells of its column. -/
theorem before_hit {ss : List Score} (h1 : ss.Pairwise (fun s s' => s'.y ≤ s.y ∧ s'.x ≤ s.x ∧ (s.type = .match → s'.y < s.y)))
    {c : Score} (hc : c ∈ ss) (hty : c.type = .match) :
    before Score.x ss c.x ≤ before Score.y ss c.y ∧ before Score.y ss c.y < before Score.x ss (c.x + 1) := by
  have key : ∀ s ∈ ss, (s.x < c.x → s.y < c.y) ∧ (s.y < c.y → s.x ≤ c.x) := by
    induction ss with
    | nil => cases hc
    | cons a ss ih =>
      rw [List.pairwise_cons] at h1
      rcases List.mem_cons.mp hc with rfl | hc'
      · intro s hs
        rcases List.mem_cons.mp hs with rfl | hs
        · simp
        · have h2 := h1.1 s hs
          have := h2.2.2 hty
          exact ⟨fun _ => this, fun _ => h2.2.1⟩
      · intro s hs
        rcases List.mem_cons.mp hs with rfl | hs
        · have := h1.1 c hc'
          constructor <;> intro <;> omega
        · exact ih h1.2 hc' s hs
  unfold before
  constructor
  · apply Nat.add_le_add_left
    apply List.countP_mono_left
    intro s hs hx
    simp only [decide_eq_true_eq] at hx ⊢
    exact (key s hs).1 hx
  · apply Nat.add_lt_add_left
    apply countP_lt
    · intro s hs hx
      simp only [decide_eq_true_eq] at hx ⊢
      have := (key s hs).2 hx
      omega
    · exact ⟨c, hc, by simp, by simp⟩

section
variable {ts : TopoFn} {ti : TokenIndex} {s s' : AlignSt} {ps : List WPath} {w : Witness} {P : WPath} {rkf : VId → Nat}
  {o : List VId} {m : Nat} {r : Ranking} {cube : Cube} {cells : List (List Score)} {al : Dict Token VId}
  {pf : Option PFilter}

/-- No token is matched with the vertex of an earlier one while the token just before it matches the same column. -/
def Cube.NoReturn (cube : Cube) : Prop := ∀ (i j x : Nat) (v : VId) (t t' : Token), i < j → cube.rel (j - 1) x = true →
  dget cube ((i : Int), (x : Int)) = some (v, t) → dget cube ((j : Int), (x : Int)) = some (v, t') → False

/-- All matches of the trace are kept. -/
theorem StepOf.all_any (L : Layout ti) (hs : AInv ti s ps) (hw : ti.ws[ps.length]? = some w)
    (hst : StepOf ts pf ti s ps w P rkf o m r cube cells al) {ss : List Score} {y x : Nat} (htr : Trace cells y x ss)
    (hal : alignLoop cube ss [] [] = .ok al) (hM : cube.NoReturn) :
    ∀ s' ∈ ss, s'.type = .match → ∃ v t, w.tokens[s'.y - 1]? = some t ∧ 1 ≤ s'.y ∧ rkf v = s'.x ∧ v ∈ s.g.vertices ∧ dget al t = some v := by
  have hnd := L.tokens_nodup hw
  have hsrcs : ∀ c t v, AlSrc cube c t v → ∃ i : Nat, w.tokens[i]? = some t ∧ c.y = i + 1 ∧ rkf v = c.x ∧ v ∈ s.g.vertices := by
    rintro c t v ⟨_, hd⟩
    obtain ⟨i, h1, h2, h3, h4, _⟩ := hst.hit hs hd
    exact ⟨i, h1, by omega, by omega, h4⟩
  have hp2 := (htr.pairwise hst.table).2
  obtain ⟨_, hpw, _⟩ := htr.balance_any hst.table (hst.neg hs)
  obtain ⟨_, k2⟩ := alignLoop_all cube ss [] [] al hal ((hpw.and hp2).imp (by
    rintro c c' ⟨h1, h2⟩ t v t' v' g1 g2
    obtain ⟨i, a1, a2, a3, _⟩ := hsrcs c t v g1
    obtain ⟨i', b1, b2, b3, _⟩ := hsrcs c' t' v' g2
    have e1 := h1 g1.1
    have e2 := h2.2.2 g1.1
    constructor
    · rintro rfl
      obtain ⟨q1, q2⟩ := List.getElem?_eq_some_iff.mp a1
      obtain ⟨q3, q4⟩ := List.getElem?_eq_some_iff.mp b1
      have := (hnd.getElem_inj_iff (hi := q1) (hj := q3)).mp (by rw [q2, q4])
      omega
    · rintro rfl
      rcases e1 with e1 | ⟨e3, e4, e5⟩
      · omega
      · have d1 := g1.2
        have d2 := g2.2
        rw [show c'.x = c.x by omega] at d2
        rw [show ((c.y : Int) - 1) = ((i : Nat) : Int) by omega, show ((c.x : Int) - 1) = ((c.x - 1 : Nat) : Int) by omega] at d1
        rw [show ((c'.y : Int) - 1) = ((i' : Nat) : Int) by omega, show ((c.x : Int) - 1) = ((c.x - 1 : Nat) : Int) by omega] at d2
        rw [show c.y - 2 = i - 1 by omega] at e5
        exact hM i' i (c.x - 1) v t' t (by omega) e5 d2 d1)) (by simp)
  intro c hc hty
  have hcell := htr.mem hst.table c hc
  have hm := (hst.table.cell_ok _ _ _ hcell).isMatch hty
  obtain ⟨⟨v, t⟩, hd⟩ := Option.isSome_iff_exists.mp (show (dget cube ((c.y : Int) - 1, (c.x : Int) - 1)).isSome = true from hm.1)
  obtain ⟨i, a1, a2, a3, a4⟩ := hsrcs c t v ⟨hty, hd⟩
  refine ⟨v, t, ?_, by omega, a3, a4, k2 c hc t v ⟨hty, hd⟩⟩
  rw [a2]
  exact a1

/-- A traced path has no more steps than there are columns and rows. -/
theorem Trace.length_le {width h : Nat} (ht : TableEq cube width h cells) {y x : Nat} {ss : List Score} (htr : Trace cells y x ss) :
    ss.length ≤ x + y := by
  induction htr with
  | origin => exact Nat.le_refl _
  | @step y x c ss h0 hc htr ih =>
    have hok := ht.cell_ok _ _ c hc
    have hpar := hok.parent h0
    rw [List.length_cons]
    omega

/-- The graph after a step fits into as many columns as the traced path has steps, and the score counts what is shared. -/
theorem StepOf.fits_any (L : Layout ti) (hs : AInv ti s ps) (hne : ps ≠ []) (hw : ti.ws[ps.length]? = some w)
    (hs' : AInv ti s' (ps ++ [P])) (hst : StepOf ts pf ti s ps w P rkf o m r cube cells al) :
    ∃ (len : Nat) (f : VId → Nat),
      f startV = 0 ∧ f endV = len + 1 ∧ (∀ e ∈ s'.g.pairs, f e.1 < f e.2) ∧ len ≤ m - 2 + w.tokens.length ∧
      (cube.NoReturn → ∀ steps, endOf steps (0, 0) = (m - 2, w.tokens.length) →
        pathScore cube.rel steps (0, 0) ≤ 2 * ((P.inner.filter (· ∈ s.g.vertices)).length : Int) - len) := by
  have hneg := hst.neg hs
  have hedge : ∀ p ∈ s.g.pairs, rkf p.1 < rkf p.2 := fun p hp => hst.rank.isRank.lt hs.ginv.wf hp
  have hbd := hs.ginv.rank_bounds hne hedge
  have hem := hst.rank.lt_m hs.ginv.end_mem
  have hse := (hbd endV hs.ginv.end_mem).1 (by decide)
  have hwid : rankCount s.g r - 1 = m - 2 := by rw [rankCount_eq hst.rank]; omega
  obtain ⟨ss, htr, hal⟩ := hst.trace
  rw [hwid] at htr
  obtain ⟨b1, b2, b3, b4⟩ := htr.balance_any hst.table hneg
  have hp2 := (htr.pairwise hst.table).2
  have hinner : ∀ (i : Nat) (v : VId), P.inner[i]? = some v → ∃ t, w.tokens[i]? = some t ∧
      (dget al t = some v ∨ (dget al t = none ∧ s.g.next ≤ v)) := by
    intro i v hv
    rw [hst.path] at hv
    simp only [WPath.inner, List.getElem?_map] at hv
    obtain ⟨⟨v', us⟩, hq, rfl⟩ := Option.map_eq_some_iff.mp hv
    obtain ⟨t, ht, rfl, hc⟩ := newSegs_mem (List.mem_of_getElem? hq)
    have e := congrArg (fun l => l[i]?) (newSegs_snd al s.g.next w.tokens)
    simp only [List.getElem?_map, hq, Option.map_some] at e
    obtain ⟨t', h1, h2⟩ := Option.map_eq_some_iff.mp e.symm
    have : t' = t := by simpa using h2
    subst this
    refine ⟨t', h1, ?_⟩
    rcases hc with hc | ⟨hc, hc', _⟩
    · exact Or.inl hc
    · exact Or.inr ⟨hc, hc'⟩
  have hPm : P ∈ ps ++ [P] := by simp
  have hnd : P.inner.Nodup := hs'.ginv.inner_nodup hPm
  have hidx : ∀ (i : Nat) (v : VId), P.inner[i]? = some v → P.inner.idxOf v = i := by
    intro i v hv
    obtain ⟨q1, q2⟩ := List.getElem?_eq_some_iff.mp hv
    rw [← q2]
    exact hnd.idxOf_getElem i q1
  have hPin : ∀ v ∈ P.inner, v ≠ startV ∧ v ≠ endV := by
    intro v hv
    obtain ⟨q, hq, rfl⟩ := List.mem_map.mp hv
    have := hs'.ginv.segs_in P hPm q hq
    exact ⟨this.2.1, this.2.2.1⟩
  obtain ⟨f, hf⟩ : ∃ f : VId → Nat, f = fun v => if v = startV then 0 else if v = endV then ss.length + 1 else
    if v ∈ P.inner then before Score.y ss (P.inner.idxOf v + 1) else before Score.x ss (rkf v) := ⟨_, rfl⟩
  have f0 : f startV = 0 := by rw [hf]; simp
  have f1 : f endV = ss.length + 1 := by rw [hf]; simp [show endV ≠ startV by decide]
  have hrange : ∀ v ∈ s.g.vertices, v ≠ startV → v ≠ endV → ∃ c ∈ ss, c.x = rkf v := by
    intro v hv h1 h2
    have := (hbd v hv).1 h1
    have := (hbd v hv).2 h2
    exact b3 (rkf v) (by omega) (by omega)
  have fnew : ∀ (i : Nat) (v : VId), P.inner[i]? = some v → f v = before Score.y ss (i + 1) ∧ ∃ c ∈ ss, c.y = i + 1 := by
    intro i v hv
    obtain ⟨t, ht, hc⟩ := hinner i v hv
    refine ⟨?_, b4 (i + 1) (by omega) (by have := (List.getElem?_eq_some_iff.mp ht).1; omega)⟩
    obtain ⟨h1, h2⟩ := hPin v (List.mem_of_getElem? hv)
    rw [hf]
    simp [h1, h2, hidx i v hv, List.mem_of_getElem? hv]
  have fold : ∀ v ∈ s.g.vertices, v ≠ startV → v ≠ endV →
      before Score.x ss (rkf v) ≤ f v ∧ f v < before Score.x ss (rkf v + 1) := by
    intro v hv h1 h2
    by_cases hP : v ∈ P.inner
    · obtain ⟨i, hi⟩ := List.getElem?_of_mem hP
      rw [(fnew i v hi).1]
      obtain ⟨t, ht, hc | ⟨_, hc⟩⟩ := hinner i v hi
      · obtain ⟨c, hcm, hty, k1, k2, k3, _⟩ := hst.source L hs hw htr hal hc
        obtain ⟨q1, q2⟩ := List.getElem?_eq_some_iff.mp ht
        obtain ⟨q3, q4⟩ := List.getElem?_eq_some_iff.mp k2
        have := ((L.tokens_nodup hw).getElem_inj_iff (hi := q1) (hj := q3)).mp (by rw [q2, q4])
        rw [k3, show i + 1 = c.y by omega]
        exact before_hit hp2 hcm hty
      · have := hs.ginv.fresh v hv
        omega
    · have : f v = before Score.x ss (rkf v) := by rw [hf]; simp [h1, h2, hP]
      rw [this]
      exact ⟨Nat.le_refl _, before_lt (Nat.lt_succ_self _) (hrange v hv h1 h2)⟩
  have ftop : ∀ {q : Score → Nat} {i : Nat}, before q ss i ≤ ss.length + 1 := by
    intro q i
    unfold before
    have := List.countP_le_length (p := fun s => decide (q s < i)) (l := ss)
    omega
  refine ⟨ss.length, f, f0, f1, ?_, htr.length_le hst.table, ?_⟩
  · rintro ⟨u, v⟩ he
    obtain ⟨q, hq, hcon⟩ := (hs'.ginv.edges_iff u v).mp he
    simp only
    rcases List.mem_append.mp hq with hq | hq
    · have he' := (hs.ginv.edges_iff u v).mpr ⟨q, hq, hcon⟩
      obtain ⟨hu, hv⟩ := hs.ginv.wf.ends _ he'
      have hlt := hedge _ he'
      simp only at hu hv hlt
      have hv0 : v ≠ startV := by
        rintro rfl
        by_cases h : u = startV
        · subst h; omega
        · have := (hbd u hu).1 h; omega
      have hu1 : u ≠ endV := by
        rintro rfl
        by_cases h : v = endV
        · subst h; omega
        · have := (hbd v hv).2 h; omega
      by_cases hu0 : u = startV
      · subst hu0
        rw [f0]
        by_cases hv1 : v = endV
        · subst hv1; rw [f1]; omega
        · have := (fold v hv hv0 hv1).1
          unfold before at this
          omega
      · have hfu := (fold u hu hu0 hu1).2
        by_cases hv1 : v = endV
        · subst hv1
          rw [f1]
          exact Nat.lt_of_lt_of_le hfu ftop
        · exact Nat.lt_of_lt_of_le hfu (Nat.le_trans (before_mono hlt) (fold v hv hv0 hv1).1)
    · simp only [List.mem_singleton] at hq
      subst hq
      have hpw : q.path.Pairwise (fun a b => f a < f b) := by
        unfold WPath.path
        refine List.pairwise_cons.mpr ⟨?_, List.pairwise_append.mpr ⟨?_, by simp, ?_⟩⟩
        · intro a ha
          rw [f0]
          rcases List.mem_append.mp ha with ha | ha
          · obtain ⟨i, hi⟩ := List.getElem?_of_mem ha
            rw [(fnew i a hi).1]; unfold before; omega
          · simp only [List.mem_singleton] at ha
            subst ha; rw [f1]; omega
        · rw [List.pairwise_iff_getElem]
          intro i j hi hj hij
          obtain ⟨e1, e2⟩ := fnew i _ (List.getElem?_eq_getElem hi)
          obtain ⟨e3, _⟩ := fnew j _ (List.getElem?_eq_getElem hj)
          rw [e1, e3]
          exact before_lt (by omega) e2
        · intro a ha b hb
          simp only [List.mem_singleton] at hb
          subst hb
          obtain ⟨i, hi⟩ := List.getElem?_of_mem ha
          obtain ⟨e1, e2⟩ := fnew i a hi
          rw [e1, f1]
          have := before_le e2
          omega
      have := hpw.sublist hcon.sublist
      simpa using this
  · intro hM steps hend
    obtain ⟨c, hc⟩ := hst.table.exists_cell (y := w.tokens.length) (x := m - 2) (by omega) (by
      have := hst.width; omega)
    have h1 := hst.table.path_le hneg steps c (by rw [hend]; exact hc)
    rw [b1 c hc] at h1
    have h2 : ss.countP Score.hit ≤ (P.inner.filter (· ∈ s.g.vertices)).length := by
      rw [List.countP_eq_length_filter]
      have := nodup_length_le (l := (ss.filter Score.hit).map Score.y)
        (m := (P.inner.filter (· ∈ s.g.vertices)).map (fun v => P.inner.idxOf v + 1)) ?_ ?_
      · simpa using this
      · unfold List.Nodup
        rw [List.pairwise_map]
        refine ((List.Pairwise.filter _ hp2).imp_of_mem ?_)
        intro a b ha _ h
        have hta : a.type = .match := by simpa [Score.hit] using (List.mem_filter.mp ha).2
        have := h.2.2 hta
        omega
      · intro a ha
        obtain ⟨d, hd, rfl⟩ := List.mem_map.mp ha
        obtain ⟨hd1, hd2⟩ := List.mem_filter.mp hd
        obtain ⟨v, t, g1, g2, g3, g4, g5⟩ := hst.all_any L hs hw htr hal hM d hd1 (by simpa [Score.hit] using hd2)
        have hv : P.inner[d.y - 1]? = some v := by
          obtain ⟨u, hu⟩ : ∃ u, P.inner[d.y - 1]? = some u := by
            have : P.inner.length = w.tokens.length := by
              have := congrArg List.length (newSegs_snd al s.g.next w.tokens)
              rw [hst.path]
              simpa [WPath.inner] using this
            exact ⟨_, List.getElem?_eq_getElem (by rw [this]; exact (List.getElem?_eq_some_iff.mp g1).1)⟩
          obtain ⟨t2, k1, k2 | ⟨k2, _⟩⟩ := hinner _ u hu
          · rw [g1] at k1
            obtain rfl := Option.some.inj k1
            rw [g5] at k2
            rw [hu]
            exact k2.symm
          · rw [g1] at k1
            obtain rfl := Option.some.inj k1
            rw [g5] at k2
            cases k2
        refine List.mem_map.mpr ⟨v, List.mem_filter.mpr ⟨List.mem_of_getElem? hv, by simpa using g4⟩, ?_⟩
        rw [hidx _ v hv]
        omega
    omega

end

end CollateX
