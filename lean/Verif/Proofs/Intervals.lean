import Verif.Proofs.SuffixArray
import Verif.Proofs.Dict
import Verif.Model.TokenIndex
/-
`split_lcp_array_into_intervals`: stack invariant, soundness and completeness.
-/

namespace CollateX

/-- `m` is the least LCP value strictly after `a`, up to `b`. -/
def IsMin (f : Nat → Nat) (a b m : Nat) : Prop := (∀ i, a < i → i ≤ b → m ≤ f i) ∧ ∃ i, a < i ∧ i ≤ b ∧ f i = m

theorem isMin_succ {f : Nat → Nat} {a b m : Nat} (hab : a < b) (h : IsMin f a (b + 1) m) :
    ∃ m', IsMin f a b m' ∧ m = min m' (f (b + 1)) := by
  have : ∀ d a b, b - a = d → a < b → ∃ m', IsMin f a b m' := by
    intro d
    induction d with
    | zero => intro a b; omega
    | succ d ih =>
      intro a b hd hab
      by_cases h1 : b = a + 1
      · subst h1
        exact ⟨f (a + 1), ⟨fun i h1 h2 => by rw [show i = a + 1 by omega]; exact Nat.le_refl _, a + 1, by omega, by omega, rfl⟩⟩
      · obtain ⟨m', hm1, i, hi1, hi2, hi3⟩ := ih a (b - 1) (by omega) (by omega)
        by_cases h2 : m' ≤ f b
        · refine ⟨m', ?_, i, hi1, by omega, hi3⟩
          intro j hj1 hj2
          by_cases h3 : j = b
          · subst h3; exact h2
          · exact hm1 j hj1 (by omega)
        · refine ⟨f b, ?_, b, hab, Nat.le_refl _, rfl⟩
          intro j hj1 hj2
          by_cases h3 : j = b
          · subst h3; exact Nat.le_refl _
          · have := hm1 j hj1 (by omega); omega
  obtain ⟨m', hm⟩ := this _ a b rfl hab
  refine ⟨m', hm, ?_⟩
  obtain ⟨h1, i, hi1, hi2, hi3⟩ := h
  obtain ⟨g1, j, hj1, hj2, hj3⟩ := hm
  have a1 := h1 j hj1 (by omega)
  have a2 := h1 (b + 1) (by omega) (by omega)
  by_cases h3 : i = b + 1
  · subst h3; omega
  · have := g1 i hi1 (by omega); omega

theorem closeLoop_eq (idx v : Nat) (opn : List (Nat × Nat)) : ∀ closed, closeLoop idx v opn closed =
    (opn.dropWhile (fun p => p.2 > v), closed ++ (opn.takeWhile (fun p => p.2 > v)).map (fun p => ⟨p.1, idx - 1, p.2⟩)) := by
  induction opn with
  | nil => intro closed; simp [closeLoop]
  | cons p opn ih =>
    obtain ⟨st, len⟩ := p
    intro closed
    simp only [closeLoop]
    by_cases h : len > v
    · rw [if_pos h, ih]
      simp [h]
    · rw [if_neg h]
      simp [h]

/-- State of the loop after `idx ≥ 1` entries. -/
structure SplitInv (f : Nat → Nat) (idx prev : Nat) (opn : List (Nat × Nat)) (closed : List Block) : Prop where
  prevEq : prev = f (idx - 1)
  opnOK : ∀ p ∈ opn, 0 < p.2 ∧ p.1 + 2 ≤ idx ∧ ∀ i, p.1 < i → i < idx → p.2 ≤ f i
  sorted : opn.Pairwise (fun p q => q.1 ≤ p.1 ∧ q.2 ≤ p.2)
  top : 0 < prev → ∃ p rest, opn = p :: rest ∧ p.2 = prev
  empty : prev = 0 → opn = []
  closedOK : ∀ b ∈ closed, 0 < b.length ∧ b.start < b.stop ∧ b.stop + 2 ≤ idx ∧
    ∀ i, b.start < i → i ≤ b.stop → b.length ≤ f i
  complete : ∀ a b m, a < b → b < idx → IsMin f a b m → 0 < m →
    (∃ c ∈ closed, c.length = m ∧ c.start ≤ a ∧ b ≤ c.stop) ∨ ∃ p ∈ opn, p.2 = m ∧ p.1 ≤ a

theorem SplitInv.last {f : Nat → Nat} {idx prev : Nat} {opn : List (Nat × Nat)} {closed : List Block}
    (h : SplitInv f idx prev opn closed) {a m : Nat} (ha : a + 1 < idx) (hm : IsMin f a (idx - 1) m) (h0 : 0 < m) :
    ∃ p ∈ opn, p.2 = m ∧ p.1 ≤ a := by
  rcases h.complete a (idx - 1) m (by omega) (by omega) hm h0 with ⟨c, hc, _, _, h3⟩ | h
  · have := h.closedOK c hc; omega
  · exact h

theorem SplitInv.le_prev {f : Nat → Nat} {idx prev : Nat} {opn : List (Nat × Nat)} {closed : List Block}
    (h : SplitInv f idx prev opn closed) (p : Nat × Nat) (hp : p ∈ opn) : p.2 ≤ prev := by
  have h1 := h.opnOK p hp
  have := h1.2.2 (idx - 1) (by omega) (by omega)
  rw [h.prevEq]; exact this

theorem splitLoop_ok (f : Nat → Nat) (vs : List Nat) : ∀ (idx prev : Nat) (opn : List (Nat × Nat)) (closed : List Block),
    1 ≤ idx → (∀ (k v : Nat), vs[k]? = some v → f (idx + k) = v) → SplitInv f idx prev opn closed →
    ∃ prev' opn' closed', splitLoop idx vs prev opn closed = .ok (opn', closed') ∧
      SplitInv f (idx + vs.length) prev' opn' closed' := by
  induction vs with
  | nil => intro idx prev opn closed _ _ h; exact ⟨prev, opn, closed, rfl, h⟩
  | cons v vs ih =>
    intro idx prev opn closed hidx hf h
    have hfv : f idx = v := hf 0 v (by simp)
    have hf' : ∀ (k w : Nat), vs[k]? = some w → f (idx + 1 + k) = w := by
      intro k w hw
      have := hf (k + 1) w (by simpa using hw)
      rw [show idx + 1 + k = idx + (k + 1) by omega]; exact this
    -- the least value of intervals ending at the new entry
    have hnew : ∀ a m, a + 1 < idx → IsMin f a idx m → ∃ m', IsMin f a (idx - 1) m' ∧ m = min m' v ∧ m' ≤ prev := by
      intro a m ha hm
      have e : idx - 1 + 1 = idx := by omega
      rw [← e] at hm
      obtain ⟨m', h1, h2⟩ := isMin_succ (by omega) hm
      rw [e, hfv] at h2
      refine ⟨m', h1, h2, ?_⟩
      rw [h.prevEq]; exact h1.1 (idx - 1) (by omega) (Nat.le_refl _)
    have hself : ∀ m, IsMin f (idx - 1) idx m → m = v := by
      rintro m ⟨_, i, hi1, hi2, hi3⟩
      have : i = idx := by omega
      subst this
      omega
    suffices hs : ∃ prev1 opn1 closed1, splitLoop idx (v :: vs) prev opn closed = splitLoop (idx + 1) vs prev1 opn1 closed1 ∧
        SplitInv f (idx + 1) prev1 opn1 closed1 by
      obtain ⟨prev1, opn1, closed1, h1, h2⟩ := hs
      obtain ⟨p', o', c', h3, h4⟩ := ih (idx + 1) prev1 opn1 closed1 (by omega) hf' h2
      refine ⟨p', o', c', by rw [h1, h3], ?_⟩
      rw [List.length_cons, show idx + (vs.length + 1) = idx + 1 + vs.length by omega]
      exact h4
    rcases Nat.lt_trichotomy prev v with hlt | heq | hgt
    · refine ⟨v, (idx - 1, v) :: opn, closed, by rw [splitLoop, if_pos hlt], ?_⟩
      constructor
      · rw [Nat.add_sub_cancel, hfv]
      · intro p hp
        rcases List.mem_cons.mp hp with rfl | hp
        · refine ⟨by simp only; omega, by simp only; omega, ?_⟩
          intro i h1 h2
          simp only at h1 ⊢
          rw [show i = idx by omega, hfv]; exact Nat.le_refl _
        · have h1 := h.opnOK p hp
          refine ⟨h1.1, by omega, ?_⟩
          intro i h2 h3
          by_cases hi : i = idx
          · rw [hi, hfv]; have := h.le_prev p hp; omega
          · exact h1.2.2 i h2 (by omega)
      · rw [List.pairwise_cons]
        refine ⟨?_, h.sorted⟩
        intro q hq
        have h1 := h.opnOK q hq
        have h2 := h.le_prev q hq
        simp only
        omega
      · intro _; exact ⟨_, _, rfl, rfl⟩
      · intro h0; omega
      · intro b hb
        have := h.closedOK b hb
        exact ⟨this.1, this.2.1, by omega, this.2.2.2⟩
      · intro a b m hab hb hm h0
        by_cases hbi : b = idx
        · right
          subst hbi
          by_cases ha : a + 1 = b
          · have : a = b - 1 := by omega
            subst this
            exact ⟨_, List.mem_cons_self .., (hself m hm).symm, Nat.le_refl _⟩
          · obtain ⟨m', h1, h2, h3⟩ := hnew a m (by omega) hm
            have : m = m' := by omega
            subst this
            obtain ⟨p, hp, h4⟩ := h.last (by omega) h1 h0
            exact ⟨p, List.mem_cons_of_mem _ hp, h4⟩
        · rcases h.complete a b m hab (by omega) hm h0 with h1 | ⟨p, hp, h1⟩
          · exact Or.inl h1
          · exact Or.inr ⟨p, List.mem_cons_of_mem _ hp, h1⟩
    · subst heq
      refine ⟨prev, opn, closed, by rw [splitLoop, if_neg (by omega), if_neg (by omega)], ?_⟩
      constructor
      · rw [Nat.add_sub_cancel, hfv]
      · intro p hp
        have h1 := h.opnOK p hp
        refine ⟨h1.1, by omega, ?_⟩
        intro i h2 h3
        by_cases hi : i = idx
        · rw [hi, hfv]; exact h.le_prev p hp
        · exact h1.2.2 i h2 (by omega)
      · exact h.sorted
      · exact h.top
      · exact h.empty
      · intro b hb
        have := h.closedOK b hb
        exact ⟨this.1, this.2.1, by omega, this.2.2.2⟩
      · intro a b m hab hb hm h0
        by_cases hbi : b = idx
        · right
          subst hbi
          by_cases ha : a + 1 = b
          · have : a = b - 1 := by omega
            subst this
            have hmv := hself m hm
            obtain ⟨p, rest, hp, hp2⟩ := h.top (by omega)
            have hpm : p ∈ opn := by rw [hp]; simp
            exact ⟨p, hpm, by omega, by have := h.opnOK p hpm; omega⟩
          · obtain ⟨m', h1, h2, h3⟩ := hnew a m (by omega) hm
            have : m = m' := by omega
            subst this
            exact h.last (by omega) h1 h0
        · exact h.complete a b m hab (by omega) hm h0
    · -- closing
      obtain ⟨p0, rest, hopn, hp0⟩ := h.top (by omega)
      set T := opn.takeWhile (fun p => decide (p.2 > v)) with hT
      set D := opn.dropWhile (fun p => decide (p.2 > v)) with hD
      have hTD : T ++ D = opn := List.takeWhile_append_dropWhile
      have hTne : T ≠ [] := by
        rw [hT, hopn, List.takeWhile_cons, if_pos (by simp; omega)]; simp
      have hTgt : ∀ p ∈ T, v < p.2 := by
        intro p hp
        have := List.all_eq_true.mp (List.all_takeWhile (p := fun p : Nat × Nat => decide (p.2 > v)) (l := opn)) p hp
        simpa using this
      have hsrt := h.sorted
      rw [← hTD, List.pairwise_append] at hsrt
      have hDle : ∀ p ∈ D, p.2 ≤ v := by
        intro p hp
        cases hDc : D with
        | nil => rw [hDc] at hp; simp at hp
        | cons d D' =>
          have hd : ¬ (d.2 > v) := by
            have hne : opn.dropWhile (fun p => decide (p.2 > v)) ≠ [] := by rw [← hD, hDc]; simp
            have := List.head_dropWhile_not (fun p : Nat × Nat => decide (p.2 > v)) (l := opn) hne
            have he : (opn.dropWhile (fun p => decide (p.2 > v))).head hne = d := by
              simp only [← hD, hDc, List.head_cons]
            rw [he] at this
            simpa using this
          rw [hDc] at hp
          rcases List.mem_cons.mp hp with rfl | hp
          · omega
          · have h2 := hsrt.2.1
            rw [hDc, List.pairwise_cons] at h2
            have := (h2.1 p hp).2
            omega
      obtain ⟨tl, hlast⟩ : ∃ tl, T.getLast? = some tl := by
        cases hg : T.getLast? with
        | none => rw [List.getLast?_eq_none_iff] at hg; exact absurd hg hTne
        | some x => exact ⟨x, rfl⟩
      have htl : tl ∈ T := List.mem_of_getLast? hlast
      have htlmin : ∀ p ∈ T, tl.1 ≤ p.1 := by
        intro p hp
        obtain ⟨T', hT'⟩ : ∃ T', T = T' ++ [tl] := by
          have := List.getLast?_eq_some_iff.mp hlast
          exact this
        rw [hT'] at hp
        have h2 := hsrt.1
        rw [hT', List.pairwise_append] at h2
        rcases List.mem_append.mp hp with hp | hp
        · exact (h2.2.2 p hp tl (by simp)).1
        · simp at hp; rw [hp]; exact Nat.le_refl _
      have hmemT : ∀ p ∈ T, p ∈ opn := fun p hp => by rw [← hTD]; exact List.mem_append_left _ hp
      have hmemD : ∀ p ∈ D, p ∈ opn := fun p hp => by rw [← hTD]; exact List.mem_append_right _ hp
      set closed1 := closed ++ T.map (fun p => (⟨p.1, idx - 1, p.2⟩ : Block)) with hclosed1
      have hlast1 : closed1.getLast? = some ⟨tl.1, idx - 1, tl.2⟩ := by
        rw [hclosed1, List.getLast?_append, List.getLast?_map, hlast]
        rfl
      have hcl : ∀ b ∈ closed1, 0 < b.length ∧ b.start < b.stop ∧ b.stop + 2 ≤ idx + 1 ∧
          ∀ i, b.start < i → i ≤ b.stop → b.length ≤ f i := by
        intro b hb
        rcases List.mem_append.mp hb with hb | hb
        · have := h.closedOK b hb
          exact ⟨this.1, this.2.1, by omega, this.2.2.2⟩
        · obtain ⟨p, hp, rfl⟩ := List.mem_map.mp hb
          have h1 := h.opnOK p (hmemT p hp)
          refine ⟨h1.1, by simp only; omega, by simp only; omega, ?_⟩
          intro i h2 h3
          simp only at h2 h3 ⊢
          exact h1.2.2 i h2 (by omega)
      have hold : ∀ a b m, a < b → b < idx → IsMin f a b m → 0 < m →
          (∃ c ∈ closed1, c.length = m ∧ c.start ≤ a ∧ b ≤ c.stop) ∨ ∃ p ∈ D, p.2 = m ∧ p.1 ≤ a := by
        intro a b m hab hb hm h0
        rcases h.complete a b m hab hb hm h0 with ⟨c, hc, h1⟩ | ⟨p, hp, h1⟩
        · exact Or.inl ⟨c, List.mem_append_left _ hc, h1⟩
        · rw [← hTD] at hp
          rcases List.mem_append.mp hp with hp | hp
          · left
            refine ⟨⟨p.1, idx - 1, p.2⟩, List.mem_append_right _ (List.mem_map.mpr ⟨p, hp, rfl⟩), h1.1, h1.2, ?_⟩
            simp only; omega
          · exact Or.inr ⟨p, hp, h1⟩
      have hstep : splitLoop idx (v :: vs) prev opn closed =
          (if v > 0 then splitLoop (idx + 1) vs v ((tl.1, v) :: D) closed1
           else splitLoop (idx + 1) vs v D closed1) := by
        rw [splitLoop, if_neg (by omega), if_pos hgt]
        rw [closeLoop_eq]
        simp only [← hT, ← hD, ← hclosed1, hlast1]
      by_cases hv0 : v > 0
      · rw [if_pos hv0] at hstep
        refine ⟨v, (tl.1, v) :: D, closed1, hstep, ?_⟩
        have htlo := h.opnOK tl (hmemT tl htl)
        constructor
        · rw [Nat.add_sub_cancel, hfv]
        · intro p hp
          rcases List.mem_cons.mp hp with rfl | hp
          · refine ⟨hv0, by simp only; omega, ?_⟩
            intro i h2 h3
            simp only at h2 ⊢
            by_cases hi : i = idx
            · rw [hi, hfv]; exact Nat.le_refl _
            · have := htlo.2.2 i h2 (by omega)
              have := hTgt tl htl
              omega
          · have h1 := h.opnOK p (hmemD p hp)
            refine ⟨h1.1, by omega, ?_⟩
            intro i h2 h3
            by_cases hi : i = idx
            · rw [hi, hfv]; exact hDle p hp
            · exact h1.2.2 i h2 (by omega)
        · rw [List.pairwise_cons]
          refine ⟨?_, hsrt.2.1⟩
          intro q hq
          exact ⟨(hsrt.2.2 tl htl q hq).1, hDle q hq⟩
        · intro _; exact ⟨_, _, rfl, rfl⟩
        · intro h0; omega
        · exact hcl
        · intro a b m hab hb hm h0
          by_cases hbi : b = idx
          · right
            subst hbi
            by_cases ha : a + 1 = b
            · have : a = b - 1 := by omega
              subst this
              exact ⟨_, List.mem_cons_self .., (hself m hm).symm, by simp only; omega⟩
            · obtain ⟨m', h1, h2, h3⟩ := hnew a m (by omega) hm
              obtain ⟨p, hp, h4, h5⟩ := h.last (by omega) h1 (by omega)
              by_cases hmv : v < m'
              · have hpT : p ∈ T := by
                  rw [← hTD] at hp
                  rcases List.mem_append.mp hp with hp | hp
                  · exact hp
                  · have := hDle p hp; omega
                have := htlmin p hpT
                exact ⟨_, List.mem_cons_self .., by simp only; omega, by simp only; omega⟩
              · have hpD : p ∈ D := by
                  rw [← hTD] at hp
                  rcases List.mem_append.mp hp with hp | hp
                  · have := hTgt p hp; omega
                  · exact hp
                exact ⟨p, List.mem_cons_of_mem _ hpD, by omega, h5⟩
          · rcases hold a b m hab (by omega) hm h0 with h1 | ⟨p, hp, h1⟩
            · exact Or.inl h1
            · exact Or.inr ⟨p, List.mem_cons_of_mem _ hp, h1⟩
      · rw [if_neg hv0] at hstep
        refine ⟨v, D, closed1, hstep, ?_⟩
        have hDnil : D = [] := by
          cases hDc : D with
          | nil => rfl
          | cons d D' =>
            have hd : d ∈ D := by rw [hDc]; simp
            have h1 := hDle d hd
            have h2 := h.opnOK d (hmemD d hd)
            omega
        constructor
        · rw [Nat.add_sub_cancel, hfv]
        · rw [hDnil]; simp
        · rw [hDnil]; simp
        · intro h0; omega
        · intro _; exact hDnil
        · exact hcl
        · intro a b m hab hb hm h0
          by_cases hbi : b = idx
          · subst hbi
            have := hm.1 b hab (Nat.le_refl _)
            omega
          · exact hold a b m hab (by omega) hm h0

/-- The reported intervals: sound and complete. -/
theorem splitLcp_ok (lcp : List Nat) (h0 : rd lcp 0 = 0) :
    ∃ bs, splitLcp lcp = .ok bs ∧
      (∀ b ∈ bs, 0 < b.length ∧ b.start < b.stop ∧ b.stop < lcp.length ∧
        ∀ i, b.start < i → i ≤ b.stop → b.length ≤ rd lcp i) ∧
      ∀ a b m, a < b → b < lcp.length → IsMin (rd lcp) a b m → 0 < m →
        ∃ c ∈ bs, c.length = m ∧ c.start ≤ a ∧ b ≤ c.stop := by
  cases lcp with
  | nil => exact ⟨[], rfl, by simp, by simp⟩
  | cons v vs =>
    have hv : v = 0 := h0
    subst hv
    have h1 : splitLoop 0 (0 :: vs) 0 [] [] = splitLoop 1 vs 0 [] [] := rfl
    obtain ⟨prev, opn, closed, h2, h3⟩ := splitLoop_ok (rd (0 :: vs)) vs 1 0 [] [] (Nat.le_refl _)
      (by
        intro k v hk
        apply rd_eq
        rw [Nat.add_comm]; simpa using hk)
      (by
        constructor
        · rfl
        · simp
        · simp
        · intro h; omega
        · intro _; rfl
        · simp
        · intro a b m hab hb; omega)
    refine ⟨_, by unfold splitLcp; rw [h1, h2, bind_ok], ?_, ?_⟩
    · intro b hb
      rcases List.mem_append.mp hb with hb | hb
      · have := h3.closedOK b hb
        exact ⟨this.1, this.2.1, by simp only [List.length_cons]; omega, this.2.2.2⟩
      · obtain ⟨p, hp, rfl⟩ := List.mem_map.mp hb
        have hp' : p ∈ opn := List.mem_reverse.mp (List.mem_filter.mp hp).1
        have := h3.opnOK p hp'
        simp only [List.length_cons, Nat.add_sub_cancel]
        exact ⟨this.1, by omega, by omega, fun i h4 h5 => this.2.2 i h4 (by omega)⟩
    · intro a b m hab hb hm hpos
      simp only [List.length_cons] at hb
      rcases h3.complete a b m hab (by omega) hm hpos with ⟨c, hc, h4⟩ | ⟨p, hp, h4, h5⟩
      · exact ⟨c, List.mem_append_left _ hc, h4⟩
      · refine ⟨⟨p.1, (0 :: vs).length - 1, p.2⟩, List.mem_append_right _ (List.mem_map.mpr ⟨p, ?_, rfl⟩), h4, h5, ?_⟩
        · rw [List.mem_filter]
          exact ⟨List.mem_reverse.mpr hp, by simp; omega⟩
        · simp only [List.length_cons]; omega

end CollateX
