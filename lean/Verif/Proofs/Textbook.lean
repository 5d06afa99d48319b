import Verif.Proofs.Best
import Verif.Spec.Textbook
/-
The score table of the aligner for a single earlier witness, and the links found by tracing it back.
-/

namespace CollateX
open Spec

/-- The matches of a trace, as pairs of positions. -/
def hitsOf (ss : List Score) : List (Nat × Nat) := (ss.filter Score.hit).map (fun c => (c.x - 1, c.y - 1))

theorem hitsOf_cons (c : Score) (ss : List Score) : hitsOf (c :: ss) = (if c.type = .match then [(c.x - 1, c.y - 1)] else []) ++ hitsOf ss := by
  unfold hitsOf
  rw [List.filter_cons]
  by_cases h : c.type = .match <;> simp [Score.hit, h]

section
variable {cube : Cube} {width h : Nat} {cells : List (List Score)} {M : Nat → Nat → Bool}

/-- A cell and every trace that begins with it agree with a score and a list of links. -/
def Shows (cells : List (List Score)) (c : Score) (v : Int × List (Nat × Nat)) : Prop :=
  c.g = v.1 ∧ ∀ ss, Trace cells c.py c.px ss → hitsOf (c :: ss) = v.2

theorem max3_shows {a b c : Score} {u v w : Int × List (Nat × Nat)} (ha : Shows cells a u) (hb : Shows cells b v) (hc : Shows cells c w) :
    Shows cells (max3 a b c) (if w.1 > (if v.1 > u.1 then v else u).1 then w else if v.1 > u.1 then v else u) := by
  unfold max3
  simp only [ha.1, hb.1, hc.1]
  by_cases h1 : v.1 > u.1
  · simp only [h1, if_true, hb.1]
    by_cases h2 : w.1 > v.1
    · simp only [h2, if_true]; exact hc
    · simp only [h2, if_false]; exact hb
  · simp only [h1, if_false, ha.1]
    by_cases h2 : w.1 > u.1
    · simp only [h2, if_true]; exact hc
    · simp only [h2, if_false]; exact ha

theorem alignRow_succ (M : Nat → Nat → Bool) (i : Nat) (f : Nat → Int × List (Nat × Nat)) (j : Nat) : alignRow M i f (j + 1) =
    if (if 0 < j && M i (j - 1) && M i j then ((alignRow M i f j).1 + 1, (i, j) :: (alignRow M i f j).2)
        else ((alignRow M i f j).1 - 1, (alignRow M i f j).2)).1 >
      (if ((f (j + 1)).1 - 1, (f (j + 1)).2).1 > (if M i j then ((f j).1 + 1, (i, j) :: (f j).2) else ((f j).1 - 1, (f j).2)).1
        then ((f (j + 1)).1 - 1, (f (j + 1)).2) else (if M i j then ((f j).1 + 1, (i, j) :: (f j).2) else ((f j).1 - 1, (f j).2))).1
    then (if 0 < j && M i (j - 1) && M i j then ((alignRow M i f j).1 + 1, (i, j) :: (alignRow M i f j).2)
        else ((alignRow M i f j).1 - 1, (alignRow M i f j).2))
    else (if ((f (j + 1)).1 - 1, (f (j + 1)).2).1 > (if M i j then ((f j).1 + 1, (i, j) :: (f j).2) else ((f j).1 - 1, (f j).2)).1
        then ((f (j + 1)).1 - 1, (f (j + 1)).2) else (if M i j then ((f j).1 + 1, (i, j) :: (f j).2) else ((f j).1 - 1, (f j).2))) := rfl

/-- The score table, and the links found in it. -/
theorem TableEq.shows (ht : TableEq cube width h cells) (hneg : ∀ x : Nat, cube.has (-1) (x : Int) = false)
    (hrel : ∀ y x, cube.rel y x = M x y) : ∀ (n y x : Nat), x + y = n → ∀ c, cellOf cells y x = some c →
      c.g = (aligned M x y).1 ∧ ∀ ss, Trace cells y x ss → hitsOf ss = (aligned M x y).2 := by
  intro n
  induction n using Nat.strongRecOn with
  | _ n ih =>
    intro y x hn c hc
    have hb := ht.bounds hc
    have stepOf : ∀ (v : Int × List (Nat × Nat)), (x ≠ 0 ∨ y ≠ 0) → Shows cells c v → c.g = v.1 ∧ ∀ ss, Trace cells y x ss → hitsOf ss = v.2 := by
      intro v h0 hsh
      refine ⟨hsh.1, ?_⟩
      intro ss htr
      cases htr with
      | origin => simp at h0
      | step _ hc' htr' =>
        rw [hc] at hc'
        obtain rfl := Option.some.inj hc'
        exact hsh.2 _ htr'
    match y, x with
    | 0, 0 =>
      rw [ht.origin] at hc
      obtain rfl := Option.some.inj hc
      refine ⟨rfl, ?_⟩
      intro ss htr
      cases htr with
      | origin => rfl
      | step h0 _ _ => simp at h0
    | 0, x + 1 =>
      obtain ⟨p, hp⟩ := ht.exists_cell (y := 0) (x := x) (by omega) (by omega)
      have hpo := ht.cell_ok 0 x p hp
      have h2 := ht.row0 x c p hc hp
      obtain ⟨i1, i2⟩ := ih x (by omega) 0 x rfl p hp
      refine stepOf _ (by simp) ⟨?_, ?_⟩
      · rw [h2]
        simp only [gap, i1]
        cases x with
        | zero => simp [aligned, alignRow]
        | succ x =>
          simp [aligned, alignRow]
          omega
      · intro ss htr
        rw [hitsOf_cons, if_neg (by rw [h2]; exact determineType_ne _ _ _)]
        rw [h2] at htr
        simp only [gap, hpo.hx, hpo.hy] at htr
        rw [List.nil_append, i2 ss htr]
        cases x <;> simp [aligned, alignRow]
    | y + 1, 0 =>
      obtain ⟨p, hp⟩ := ht.exists_cell (y := y) (x := 0) (by omega) (by omega)
      have hpo := ht.cell_ok y 0 p hp
      have h2 := ht.col0 y c p hc hp
      obtain ⟨i1, i2⟩ := ih y (by omega) y 0 (by omega) p hp
      refine stepOf _ (by simp) ⟨?_, ?_⟩
      · rw [h2]
        simp only [gap, i1, aligned]
        push_cast
        omega
      · intro ss htr
        rw [hitsOf_cons, if_neg (by rw [h2]; exact determineType_ne _ _ _)]
        rw [h2] at htr
        simp only [gap, hpo.hx, hpo.hy] at htr
        rw [List.nil_append, i2 ss htr]
        rfl
    | y + 1, x + 1 =>
      obtain ⟨ul, hul⟩ := ht.exists_cell (y := y) (x := x) (by omega) (by omega)
      obtain ⟨left, hleft⟩ := ht.exists_cell (y := y + 1) (x := x) (by omega) (by omega)
      obtain ⟨up, hup⟩ := ht.exists_cell (y := y) (x := x + 1) (by omega) (by omega)
      have h1 := ht.cell_ok _ _ ul hul
      have h2 := ht.cell_ok _ _ left hleft
      have h3 := ht.cell_ok _ _ up hup
      obtain ⟨a1, a2⟩ := ih (x + y) (by omega) y x rfl ul hul
      obtain ⟨b1, b2⟩ := ih (x + (y + 1)) (by omega) (y + 1) x rfl left hleft
      obtain ⟨c1, c2⟩ := ih (x + 1 + y) (by omega) y (x + 1) rfl up hup
      have h4 := ht.inner y x c ul left up hc hul hleft hup
      have e1 : ((y + 1 : Nat) : Int) - 1 = (y : Int) := by omega
      have e2 : ((x + 1 : Nat) : Int) - 1 = (x : Int) := by omega
      have e3 : cube.has (y : Int) (x : Int) = M x y := hrel y x
      refine stepOf _ (by simp) ?_
      rw [h4]
      show Shows cells _ (alignRow M x (aligned M x) (y + 1))
      rw [alignRow_succ]
      refine max3_shows ?_ ?_ ?_
      · unfold scoreCell
        rw [e1, e2, e3]
        cases M x y with
        | true =>
          simp only [if_true]
          refine ⟨by simp only [a1], ?_⟩
          intro ss htr
          simp only [h1.hx, h1.hy] at htr
          rw [hitsOf_cons, if_pos rfl, a2 ss htr]
          rfl
        | false =>
          simp only [Bool.false_eq_true, if_false]
          refine ⟨by simp only [a1], ?_⟩
          intro ss htr
          simp only [h1.hx, h1.hy] at htr
          rw [hitsOf_cons, if_neg (by simp), a2 ss htr]
          rfl
      · refine ⟨by simp only [gap, b1], ?_⟩
        intro ss htr
        simp only [gap, h2.hx, h2.hy] at htr
        rw [hitsOf_cons, if_neg (by simp only [gap]; exact determineType_ne _ _ _), b2 ss htr]
        rfl
      · have hgap : Shows cells (gap (x + 1) (y + 1) up) ((alignRow M x (aligned M x) y).1 - 1, (alignRow M x (aligned M x) y).2) := by
          refine ⟨by simp only [gap, c1]; rfl, ?_⟩
          intro ss htr
          simp only [gap, h3.hx, h3.hy] at htr
          rw [hitsOf_cons, if_neg (by simp only [gap]; exact determineType_ne _ _ _), c2 ss htr]
          rfl
        unfold fromUpper
        have e4 : cube.has (((y + 1 : Nat) : Int) - 2) (((x + 1 : Nat) : Int) - 1) = (decide (0 < y) && M x (y - 1)) := by
          rw [e2]
          cases y with
          | zero =>
            rw [show ((0 + 1 : Nat) : Int) - 2 = -1 by omega, hneg]
            rfl
          | succ y =>
            rw [show ((y + 1 + 1 : Nat) : Int) - 2 = (y : Int) by omega]
            have := hrel y x
            unfold Cube.rel at this
            simpa using this
        rw [e4]
        cases hq : (decide (0 < y) && M x (y - 1)) with
        | false =>
          simp only [Bool.false_and, Bool.false_eq_true, if_false]
          exact hgap
        | true =>
          simp only [Bool.true_and, if_true]
          unfold scoreCell
          rw [e1, e2, e3]
          cases M x y with
          | true =>
            simp only [if_true]
            refine ⟨by simp only [c1]; rfl, ?_⟩
            intro ss htr
            simp only [h3.hx, h3.hy] at htr
            rw [hitsOf_cons, if_pos rfl, c2 ss htr]
            rfl
          | false =>
            simp only [Bool.false_eq_true, if_false]
            refine ⟨by simp only [c1]; rfl, ?_⟩
            intro ss htr
            simp only [h3.hx, h3.hy] at htr
            rw [hitsOf_cons, if_neg (by simp), c2 ss htr]
            rfl

end

/-! ### Which tokens are aligned -/

theorem mem_firstOf_cons {key : Nat × Nat → Nat} {p q : Nat × Nat} {l : List (Nat × Nat)} :
    p ∈ firstOf key (q :: l) ↔ p = q ∨ (p ∈ firstOf key l ∧ key p ≠ key q) := by
  simp [firstOf]

theorem mem_of_firstOf {key : Nat × Nat → Nat} : ∀ {l : List (Nat × Nat)} {p : Nat × Nat}, p ∈ firstOf key l → p ∈ l
  | q :: l, p, h => by
    rcases mem_firstOf_cons.mp h with rfl | ⟨h, _⟩
    · simp
    · exact List.mem_cons_of_mem _ (mem_of_firstOf h)

/-- Linked words are the same. -/
theorem aligned_same (M : Nat → Nat → Bool) : ∀ i j, ∀ p ∈ (aligned M i j).2, M p.1 p.2 = true
  | 0, _, p, h => by simp [aligned] at h
  | i + 1, 0, p, h => by simp [aligned, alignRow] at h
  | i + 1, j + 1, p, h => by
    have h1 := aligned_same M i j
    have h2 := aligned_same M i (j + 1)
    have h3 : ∀ p ∈ (alignRow M i (aligned M i) j).2, M p.1 p.2 = true := aligned_same M (i + 1) j
    have hm : ∀ {b : Bool} {l : List (Nat × Nat)} {x y : Int}, (b = true → M i j = true) → (∀ p ∈ l, M p.1 p.2 = true) →
        ∀ p ∈ (if b then (x, (i, j) :: l) else (y, l)).2, M p.1 p.2 = true := by
      intro b l x y hb hl p hp
      cases b with
      | false => exact hl p (by simpa using hp)
      | true =>
        simp only [if_true, List.mem_cons] at hp
        rcases hp with rfl | hp
        · exact hb rfl
        · exact hl p hp
    change p ∈ (alignRow M i (aligned M i) (j + 1)).2 at h
    rw [alignRow_succ] at h
    have hall : ∀ {c d : Prop} [Decidable c] [Decidable d] {u v w : Int × List (Nat × Nat)}, (∀ p ∈ w.2, M p.1 p.2 = true) →
        (∀ p ∈ v.2, M p.1 p.2 = true) → (∀ p ∈ u.2, M p.1 p.2 = true) → ∀ p ∈ (if c then w else if d then v else u).2, M p.1 p.2 = true := by
      intro c d _ _ u v w h1 h2 h3 p hp
      by_cases hc : c
      · rw [if_pos hc] at hp; exact h1 p hp
      · rw [if_neg hc] at hp
        by_cases hd : d
        · rw [if_pos hd] at hp; exact h2 p hp
        · rw [if_neg hd] at hp; exact h3 p hp
    refine hall ?_ ?_ ?_ p h
    · exact hm (fun e => by simp only [Bool.and_eq_true] at e; exact e.2) h3
    · exact h2
    · exact hm (fun e => e) h1

/-- Keys that tell the same pairs apart. -/
theorem firstOf_congr {k k' : Nat × Nat → Nat} : ∀ {l : List (Nat × Nat)}, (∀ p ∈ l, ∀ q ∈ l, k p = k q ↔ k' p = k' q) →
    firstOf k l = firstOf k' l
  | [], _ => rfl
  | p :: l, h => by
    simp only [firstOf]
    rw [firstOf_congr (fun p hp q hq => h p (by simp [hp]) q (by simp [hq]))]
    congr 1
    apply List.filter_congr
    intro q hq
    have := h q (by simp [mem_of_firstOf hq]) p (by simp)
    simp [this]

/-- The aligned tokens: of the matches of one vertex, the first of the trace. -/
theorem alignLoop_first (m : Cube) (V : Nat × Nat → VId) (T : Nat → Token) : ∀ (ss : List Score) (al : Dict Token VId) (used : List VId)
    (al' : Dict Token VId), alignLoop m ss al used = .ok al' →
    (∀ c ∈ ss, c.type = .match → dget m ((c.y : Int) - 1, (c.x : Int) - 1) = some (V (c.x - 1, c.y - 1), T (c.y - 1))) →
    (∀ p ∈ hitsOf ss, dget al (T p.2) = none) →
    (hitsOf ss).Pairwise (fun p q => T p.2 ≠ T q.2) →
    ∀ t v, dget al' t = some v ↔ dget al t = some v ∨ ∃ p ∈ firstOf V (hitsOf ss), V p ∉ used ∧ t = T p.2 ∧ v = V p := by
  intro ss
  induction ss with
  | nil =>
    intro al used al' h _ _ _ t v
    simp only [alignLoop] at h
    obtain rfl := Except.ok.inj h
    simp [hitsOf, firstOf]
  | cons c ss ih =>
    intro al used al' h hm hT hpw t v
    unfold alignLoop at h
    rw [hitsOf_cons] at hT hpw ⊢
    by_cases hc : c.type = .match
    · rw [if_pos hc] at h hT hpw ⊢
      simp only [List.singleton_append] at hT hpw ⊢
      have hd := hm c (by simp) hc
      unfold dgetE at h
      rw [hd] at h
      simp only [bind, Except.bind] at h
      have hm' : ∀ c ∈ ss, c.type = .match → dget m ((c.y : Int) - 1, (c.x : Int) - 1) = some (V (c.x - 1, c.y - 1), T (c.y - 1)) :=
        fun c hc => hm c (by simp [hc])
      by_cases hu : V (c.x - 1, c.y - 1) ∈ used
      · rw [if_pos hu] at h
        rw [ih al used al' h hm' (fun p hp => hT p (by simp [hp])) (List.pairwise_cons.mp hpw).2 t v]
        apply or_congr Iff.rfl
        constructor
        · rintro ⟨p, hp, h1, h2⟩
          exact ⟨p, mem_firstOf_cons.mpr (Or.inr ⟨hp, fun e => h1 (by rw [e]; exact hu)⟩), h1, h2⟩
        · rintro ⟨p, hp, h1, h2⟩
          rcases mem_firstOf_cons.mp hp with rfl | ⟨hp, _⟩
          · exact absurd hu h1
          · exact ⟨p, hp, h1, h2⟩
      · rw [if_neg hu] at h
        have hnew : dget al (T (c.y - 1)) = none := hT (c.x - 1, c.y - 1) (by simp)
        rw [ih _ _ al' h hm' (by
          intro p hp
          rw [dget_dset, if_neg]
          · exact hT p (by simp [hp])
          · exact (List.pairwise_cons.mp hpw).1 p hp) (List.pairwise_cons.mp hpw).2 t v]
        rw [dget_dset]
        constructor
        · rintro (h1 | ⟨p, hp, h1, h2⟩)
          · by_cases ht : T (c.y - 1) = t
            · rw [if_pos ht] at h1
              exact Or.inr ⟨(c.x - 1, c.y - 1), mem_firstOf_cons.mpr (Or.inl rfl), hu, ht.symm, (Option.some.inj h1).symm⟩
            · rw [if_neg ht] at h1
              exact Or.inl h1
          · simp only [List.mem_append, List.mem_singleton, not_or] at h1
            exact Or.inr ⟨p, mem_firstOf_cons.mpr (Or.inr ⟨hp, h1.2⟩), h1.1, h2⟩
        · rintro (h1 | ⟨p, hp, h1, h2, h3⟩)
          · left
            rw [if_neg (by rintro rfl; rw [hnew] at h1; cases h1)]
            exact h1
          · rcases mem_firstOf_cons.mp hp with rfl | ⟨hp, hne⟩
            · left
              rw [if_pos h2.symm, h3]
            · right
              refine ⟨p, hp, ?_, h2, h3⟩
              simp only [List.mem_append, List.mem_singleton, not_or]
              exact ⟨h1, hne⟩
    · rw [if_neg hc] at h hT hpw ⊢
      simp only [List.nil_append] at hT hpw ⊢
      exact ih al used al' h (fun c hc => hm c (by simp [hc])) hT hpw t v

theorem getElem_unique {α : Type} {l : List α} (h : l.Nodup) {i j : Nat} {a : α} (hi : l[i]? = some a) (hj : l[j]? = some a) : i = j := by
  obtain ⟨q1, q2⟩ := List.getElem?_eq_some_iff.mp hi
  obtain ⟨q3, q4⟩ := List.getElem?_eq_some_iff.mp hj
  exact (h.getElem_inj_iff (hi := q1) (hj := q3)).mp (by rw [q2, q4])

section
variable {ts : TopoFn} {ti : TokenIndex} {s : AlignSt} {ps : List WPath} {w : Witness} {P : WPath} {rkf : VId → Nat}
  {o : List VId} {m : Nat} {r : Ranking} {cube : Cube} {cells : List (List Score)} {al : Dict Token VId}
  {pf : Option PFilter}

/-- Which tokens of a further witness are aligned, and with which vertices. -/
theorem StepOf.kept (L : Layout ti) (hs : AInv ti s ps) (hw : ti.ws[ps.length]? = some w)
    (hst : StepOf ts pf ti s ps w P rkf o m r cube cells al) {M : Nat → Nat → Bool} (hrel : ∀ y x, cube.rel y x = M x y) (V : Nat × Nat → VId)
    (hV : ∀ (x y : Nat) (v : VId) (t : Token), dget cube ((y : Int), (x : Int)) = some (v, t) → V (x, y) = v) (t : Token) (v : VId) :
    dget al t = some v ↔ ∃ p ∈ firstOf V (aligned M (rankCount s.g r - 1) w.tokens.length).2, w.tokens[p.2]? = some t ∧ v = V p ∧
      dget cube ((p.2 : Int), (p.1 : Int)) = some (v, t) := by
  have hneg := hst.neg hs
  obtain ⟨ss, htr, hal⟩ := hst.trace
  obtain ⟨c, hc⟩ := hst.table.exists_cell (y := w.tokens.length) (x := rankCount s.g r - 1) (by omega) (by have := hst.width; omega)
  obtain ⟨_, hhits⟩ := hst.table.shows hneg hrel _ _ _ rfl c hc
  rw [← hhits ss htr]
  have hnd := L.tokens_nodup hw
  have hmatch : ∀ c ∈ ss, c.type = .match → ∃ v t, dget cube ((c.y : Int) - 1, (c.x : Int) - 1) = some (v, t) ∧ 1 ≤ c.x ∧ 1 ≤ c.y ∧
      w.tokens[c.y - 1]? = some t := by
    intro c hcm hty
    have hcell : ∀ {y x : Nat} {ss : List Score}, Trace cells y x ss → c ∈ ss → cellOf cells c.y c.x = some c := by
      intro y x ss htr hm
      induction htr with
      | origin => cases hm
      | @step y x c' ss h0 hc' htr ih =>
        rcases List.mem_cons.mp hm with rfl | hm
        · have := hst.table.cell_ok _ _ _ hc'
          rw [this.hx, this.hy]
          exact hc'
        · exact ih hm
    have hok := hst.table.cell_ok _ _ _ (hcell htr hcm)
    obtain ⟨h1, h2, h3⟩ := hok.isMatch hty
    unfold Cube.has dmem at h1
    obtain ⟨⟨v, t⟩, hd⟩ := Option.isSome_iff_exists.mp h1
    obtain ⟨k, k1, k2, k3, k4, k5, k6⟩ := hst.hit hs hd
    refine ⟨v, t, hd, h3, by omega, ?_⟩
    rw [show c.y - 1 = k by omega]; exact k1
  have hhit : ∀ q ∈ hitsOf ss, ∃ t, w.tokens[q.2]? = some t ∧ dget cube ((q.2 : Int), (q.1 : Int)) = some (V q, t) := by
    intro q hq
    unfold hitsOf at hq
    obtain ⟨c, hc, rfl⟩ := List.mem_map.mp hq
    obtain ⟨h1, h2⟩ := List.mem_filter.mp hc
    obtain ⟨v, t, h3, h4, h5, h6⟩ := hmatch c h1 (by simpa [Score.hit] using h2)
    rw [show (c.y : Int) - 1 = ((c.y - 1 : Nat) : Int) by omega, show (c.x : Int) - 1 = ((c.x - 1 : Nat) : Int) by omega] at h3
    refine ⟨t, h6, ?_⟩
    rw [h3, hV _ _ _ _ h3]
  obtain ⟨T, hT⟩ : ∃ T : Nat → Token, T = fun i => (w.tokens[i]?).getD ⟨[], []⟩ := ⟨_, rfl⟩
  have T' : ∀ {i : Nat} {t : Token}, w.tokens[i]? = some t → T i = t := by intro i v h; rw [hT]; simp [h]
  have key := alignLoop_first cube V T ss [] [] al hal (by
      intro c hcm hty
      obtain ⟨v, t, h1, h2, h3, h4⟩ := hmatch c hcm hty
      rw [T' h4, h1]
      rw [show (c.y : Int) - 1 = ((c.y - 1 : Nat) : Int) by omega, show (c.x : Int) - 1 = ((c.x - 1 : Nat) : Int) by omega] at h1
      rw [hV _ _ _ _ h1]) (by intro q _; rfl) (by
      unfold hitsOf
      rw [List.pairwise_map]
      refine ((htr.pairwise hst.table).2.filter _).imp_of_mem ?_
      intro c c' hc hc' h
      obtain ⟨h1, h2⟩ := List.mem_filter.mp hc
      obtain ⟨h1', h2'⟩ := List.mem_filter.mp hc'
      obtain ⟨v, t, _, _, h3, h4⟩ := hmatch c h1 (by simpa [Score.hit] using h2)
      obtain ⟨v', t', _, _, h3', h4'⟩ := hmatch c' h1' (by simpa [Score.hit] using h2')
      have h5 := h.2.2 (by simpa [Score.hit] using h2)
      simp only
      rw [T' h4, T' h4']
      rintro rfl
      have := getElem_unique hnd h4 h4'
      omega)
  rw [key t v]
  constructor
  · rintro (h | ⟨p, hp, _, h1, h2⟩)
    · cases h
    · obtain ⟨t', h3, h4⟩ := hhit p (mem_of_firstOf hp)
      rw [T' h3] at h1
      subst h1 h2
      exact ⟨p, hp, h3, rfl, h4⟩
  · rintro ⟨p, hp, h1, h2, _⟩
    exact Or.inr ⟨p, hp, by simp, (T' h1).symm, h2⟩

/-- The vertices of the path of a further witness: aligned ones and new ones. -/
theorem StepOf.innerAt (hst : StepOf ts pf ti s ps w P rkf o m r cube cells al) {i : Nat} {v : VId} (hv : P.inner[i]? = some v) :
    ∃ t, w.tokens[i]? = some t ∧ (dget al t = some v ∨ (dget al t = none ∧ s.g.next ≤ v)) := by
  rw [hst.path] at hv
  simp only [WPath.inner, List.getElem?_map] at hv
  obtain ⟨⟨v', us⟩, hq, rfl⟩ := Option.map_eq_some_iff.mp hv
  obtain ⟨t, ht, rfl, hc⟩ := newSegs_mem (List.mem_of_getElem? hq)
  have e := congrArg (fun l => l[i]?) (newSegs_snd al s.g.next w.tokens)
  simp only [List.getElem?_map, hq, Option.map_some] at e
  obtain ⟨t', h1, h2⟩ := Option.map_eq_some_iff.mp e.symm
  have : t' = t := by simpa using h2
  subst this
  refine ⟨t', h1, ?_⟩
  rcases hc with hc | ⟨hc, hc', _⟩
  · exact Or.inl hc
  · exact Or.inr ⟨hc, hc'⟩

end

section
variable {ts : TopoFn} {ti : TokenIndex} {s s' : AlignSt} {w : Witness} {p P : WPath} {rkf : VId → Nat}
  {o : List VId} {m : Nat} {r : Ranking} {cube : Cube} {cells : List (List Score)} {al : Dict Token VId}
  {pf : Option PFilter} {A B : List Str}

/-- The second witness shares vertices with the first one as the links say. -/
theorem StepOf.links (L : Layout ti) (hs : AInv ti s [p]) (hw : ti.ws[1]? = some w) (hs' : AInv ti s' [p, P])
    (hst : StepOf ts pf ti s [p] w P rkf o m r cube cells al) (hrel : ∀ y x, cube.rel y x = sameAt A B x y)
    (hA : p.segs.length = A.length) (hB : w.tokens.length = B.length) (i j : Nat) :
    (∃ v, p.inner[i]? = some v ∧ P.inner[j]? = some v) ↔ (i, j) ∈ firstOf Prod.fst (aligned (sameAt A B) A.length B.length).2 := by
  have hb : Base p [p] := ⟨by simp, by simp⟩
  have hm := hb.ranks hs.ginv hst.rank
  have hwid : rankCount s.g r - 1 = A.length := by rw [rankCount_eq hst.rank]; omega
  have hnd := L.tokens_nodup hw
  have hpnd : p.inner.Nodup := hs.ginv.inner_nodup (by simp)
  obtain ⟨V, hV⟩ : ∃ V : Nat × Nat → VId, V = fun q => (p.inner[q.1]?).getD startV := ⟨_, rfl⟩
  have V' : ∀ {i j : Nat} {v : VId}, p.inner[i]? = some v → V (i, j) = v := by intro i j v h; rw [hV]; simp [h]
  have hcube : ∀ (x y : Nat) (v : VId) (t : Token), dget cube ((y : Int), (x : Int)) = some (v, t) → p.inner[x]? = some v := by
    intro x y v t hd
    obtain ⟨k, k1, k2, k3, k4, k5, k6⟩ := hst.hit hs hd
    obtain ⟨p', hp', hvp⟩ := hs.ginv.cover v k4 k5 k6
    simp only [List.mem_singleton] at hp'
    subst hp'
    obtain ⟨n, hn⟩ := List.getElem?_of_mem hvp
    have hr := hb.rank hs.ginv hst.rank (n + 1) v (by
      unfold WPath.path
      rw [List.getElem?_cons_succ, List.getElem?_append_left (List.getElem?_eq_some_iff.mp hn).1]
      exact hn)
    rw [show x = n by omega]; exact hn
  have key := hst.kept L hs hw hrel V (fun x y v t h => V' (hcube x y v t h))
  rw [hwid, hB] at key
  have hmem : ∀ q ∈ (aligned (sameAt A B) A.length B.length).2, q.1 < p.inner.length := by
    intro q hq
    have := (aligned_same (sameAt A B) A.length B.length) q hq
    unfold sameAt at this
    have h : q.1 < A.length := by
      by_contra h
      rw [List.getElem?_eq_none (by omega)] at this
      simp at this
    unfold WPath.inner
    rw [List.length_map]
    omega
  have hfirst : firstOf V (aligned (sameAt A B) A.length B.length).2 = firstOf Prod.fst (aligned (sameAt A B) A.length B.length).2 := by
    apply firstOf_congr
    intro q hq q' hq'
    obtain ⟨v, hv⟩ : ∃ v, p.inner[q.1]? = some v := ⟨_, List.getElem?_eq_getElem (hmem q hq)⟩
    obtain ⟨v', hv'⟩ : ∃ v, p.inner[q'.1]? = some v := ⟨_, List.getElem?_eq_getElem (hmem q' hq')⟩
    rw [show V q = v from V' hv, show V q' = v' from V' hv']
    constructor
    · rintro rfl
      exact getElem_unique hpnd hv hv'
    · intro h
      rw [h, hv'] at hv
      exact (Option.some.inj hv).symm
  rw [hfirst] at key
  constructor
  · rintro ⟨v, h1, h2⟩
    obtain ⟨t, h3, h4⟩ := hst.innerAt h2
    have hvs : v ∈ s.g.vertices := by
      obtain ⟨q, hq, rfl⟩ := List.mem_map.mp (List.mem_of_getElem? h1)
      exact (hs.ginv.segs_in p (by simp) q hq).1
    rcases h4 with h4 | ⟨_, h4⟩
    · obtain ⟨q, hq, h5, h6, h7⟩ := (key t v).mp h4
      have e1 := getElem_unique hpnd h1 (hcube _ _ _ _ h7)
      have e2 := getElem_unique hnd h3 h5
      rw [e1, e2]
      exact hq
    · have := hs.ginv.fresh v hvs
      omega
  · intro h
    have hsame := aligned_same (sameAt A B) A.length B.length _ (mem_of_firstOf h)
    have hr := hrel j i
    rw [hsame] at hr
    unfold Cube.rel Cube.has dmem at hr
    obtain ⟨⟨v, t⟩, hd⟩ := Option.isSome_iff_exists.mp hr
    have k1 := hcube _ _ _ _ hd
    obtain ⟨k, k2, k3, _⟩ := hst.hit hs hd
    obtain rfl : j = k := by omega
    have h1 := (key t v).mpr ⟨(i, j), h, k2, (V' k1).symm, hd⟩
    have hlen : P.inner.length = w.tokens.length := by
      rw [hst.path]
      have := congrArg List.length (newSegs_snd al s.g.next w.tokens)
      simpa [WPath.inner] using this
    obtain ⟨v', hv'⟩ : ∃ v', P.inner[j]? = some v' := ⟨_, List.getElem?_eq_getElem (by
      rw [hlen]; exact (List.getElem?_eq_some_iff.mp k2).1)⟩
    obtain ⟨t', h3, h4⟩ := hst.innerAt hv'
    rw [k2] at h3
    obtain rfl := Option.some.inj h3
    rw [h1] at h4
    rcases h4 with h4 | ⟨h4, _⟩
    · obtain rfl := Option.some.inj h4
      exact ⟨v, k1, hv'⟩
    · cases h4

end

end CollateX
