import Verif.Spec.NearProgram
import Verif.Props.Progressive
import Verif.Props.Near
/-
Near matching of two witnesses and the short program.
-/

namespace CollateX
open Spec

/-! ### The first of the best -/

theorem firstBest_mem (score : Nat → Nat) (x : Nat) (l : List Nat) : Work.firstBest score x l ∈ x :: l := by
  induction l generalizing x with
  | nil => simp [Work.firstBest]
  | cons y l ih =>
    unfold Work.firstBest
    simp only
    split
    · exact List.mem_cons_of_mem _ (ih y)
    · simp

theorem firstBest_spec (score : Nat → Nat) {x : Nat} {l : List Nat} (hl : (x :: l).Pairwise (· < ·)) :
    (∀ z ∈ x :: l, score z ≤ score (Work.firstBest score x l)) ∧
      ∀ z ∈ x :: l, z < Work.firstBest score x l → score z < score (Work.firstBest score x l) := by
  induction l generalizing x with
  | nil => simp [Work.firstBest]
  | cons y l ih =>
    obtain ⟨h1, h2⟩ := List.pairwise_cons.mp hl
    obtain ⟨i1, i2⟩ := ih h2
    have hm := h1 _ (firstBest_mem score y l)
    unfold Work.firstBest
    simp only
    split
    · rename_i hlt
      refine ⟨?_, ?_⟩
      · intro z hz
        rcases List.mem_cons.mp hz with rfl | hz
        · omega
        · exact i1 z hz
      · intro z hz
        rcases List.mem_cons.mp hz with rfl | hz
        · intro _; exact hlt
        · exact i2 z hz
    · rename_i hge
      refine ⟨?_, ?_⟩
      · intro z hz
        rcases List.mem_cons.mp hz with rfl | hz
        · omega
        · have := i1 z hz
          omega
      · intro z hz hzx
        rcases List.mem_cons.mp hz with rfl | hz
        · omega
        · have := h1 z hz
          omega

theorem firstBest_eq (score : Nat → Nat) {x y : Nat} {l : List Nat} (hl : (x :: l).Pairwise (· < ·)) (hy : y ∈ x :: l)
    (h1 : ∀ z ∈ x :: l, score z ≤ score y) (h2 : ∀ z ∈ x :: l, z < y → score z < score y) : Work.firstBest score x l = y := by
  obtain ⟨s1, s2⟩ := firstBest_spec score hl
  have hm := firstBest_mem score x l
  have a1 := s1 y hy
  have a2 := h1 _ hm
  rcases Nat.lt_trichotomy (Work.firstBest score x l) y with h | h | h
  · have := h2 _ hm h; omega
  · exact h
  · have := s2 y hy h; omega

theorem window_sorted (c k : Nat) : (c :: List.range' (c + 1) k).Pairwise (· < ·) := by
  rw [← List.range'_succ]
  exact List.pairwise_lt_range'

theorem mem_window {c n x : Nat} (h : c < n) : x ∈ c :: List.range' (c + 1) (n - (c + 1)) ↔ c ≤ x ∧ x < n := by
  rw [List.mem_cons, List.mem_range'_1]
  omega

theorem find_zip_map {α β : Type} (F : α → β) (P : β → Bool) (l : List α) :
    (l.zip (l.map F)).find? (fun p => P p.2) = (l.find? (fun a => P (F a))).map (fun a => (a, F a)) := by
  induction l with
  | nil => rfl
  | cons a l ih =>
    simp only [List.map_cons, List.zip_cons_cons, List.find?_cons]
    cases P (F a) with
    | true => rfl
    | false => exact ih

/-! ### Where the nodes are moved to -/

section
variable {ts : TopoFn} {g : VGraph} {rk f : VId → Nat} {o : List VId} {m : Nat} {r : Ranking} {ps : List WPath} {W : Work}
  {near : List (VId × VId)} {ratio : RatioFn}

/-- What the code compares. -/
theorem vertexStr_node {cc : CharClass} {ws : List Witness} (C : Collated cc ws false g ps r rk o m)
    (hW : ∀ p ∈ ps, ∀ v t, (v, [t]) ∈ p.segs → W.words[v - 2]? = some t.str) {p : WPath} (hp : p ∈ ps) {n : Nat} (hn : n + 2 ∈ p.inner) : g.vertexStr (n + 2) = W.compared n := by
  obtain ⟨⟨v, us⟩, hq, rfl⟩ := List.mem_map.mp hn
  obtain ⟨t, ht⟩ := C.single rfl p hp _ hq
  simp only at ht hq hn
  subst ht
  have hw := hW p hp (n + 2) t hq
  rw [Nat.add_sub_cancel] at hw
  have hv := (C.ginv.segs_in p hp _ hq).1
  obtain ⟨x, hx⟩ := exists_dget_of_mem_keys (d := g.nodes) hv
  have hl := C.labelled p hp _ _ hq x hx
  have hl' : x.label = t.str := by simpa [segText] using hl
  unfold VGraph.vertexStr Work.compared
  rw [hx, hw]
  simp only [hl']
  cases t.str with
  | nil => rfl
  | cons c s => simp

/-- The column of every node of a row after near matching. -/
theorem moved_eq {cc : CharClass} {ws : List Witness} (B : NearBase ts g rk o m r) (C : Collated cc ws false g ps r rk o m) (hne : ws ≠ [])
    (N : Nodes W g ps) (hW : ∀ p ∈ ps, ∀ v t, (v, [t]) ∈ p.segs → W.words[v - 2]? = some t.str) (h2 : AtMostTwo ps) (hinc : ∀ p ∈ g.pairs, f p.1 < f p.2) (hcrit : ∀ c ∈ o, Crit g rk c → f c = rk c)
    (hnear : ∀ p ∈ near, p.1 ∈ o ∧ f p.2 = rk p.1 ∧ f p.1 = rk p.1) (hstay : ∀ w ∈ o, (∀ p ∈ near, p.2 ≠ w) → f w = rk w)
    (hplaced : ∀ e ∈ g.edges, ¬ Crit g rk e.src → NearPlaced ratio g rk o near f e.src e.tgt) {p q : WPath} (hp : p ∈ ps) (hq : q ∈ ps)
    (hpq : p ≠ q) {a b : List Nat} (ha : p.inner = a.map (· + 2)) (hb : q.inner = b.map (· + 2)) :
    W.moved ratio b a = a.map (fun n => f (n + 2)) := by
  have G := C.ginv
  have hps := C.ne hne
  have hcol : ∀ n ∈ a, W.column n = rk (n + 2) := by
    intro n hn
    have h1 : n + 2 ∈ p.inner := by rw [ha]; exact List.mem_map.mpr ⟨n, hn, rfl⟩
    obtain ⟨s, hs, hse⟩ := List.mem_map.mp h1
    have h2 := (G.segs_in p hp s hs).1
    rw [hse] at h2
    exact N.column G hps C.rank h2
  have hwidth : W.width + 1 = rk endV := N.width G hps C.rank
  have hfend : f endV = rk endV := hcrit _ (B.mem.mpr B.endv) .last
  have hincf : p.path.Pairwise (fun a b => f a < f b) := G.path_increasing hinc hp
  have hincr := path_inc B G hp
  have hincq := path_inc B G hq
  have key : ∀ (R A : List Nat), a = A ++ R → W.moved ratio b R = R.map (fun n => f (n + 2)) := by
    intro R
    induction R with
    | nil => intro A _; rfl
    | cons n R ih =>
      intro A hA
      have hrest := ih (A ++ [n]) (by rw [hA]; simp)
      have hna : n ∈ a := by rw [hA]; simp
      have hnp : n + 2 ∈ p.inner := by rw [ha]; exact List.mem_map.mpr ⟨n, hna, rfl⟩
      have hnpath : n + 2 ∈ p.path := by simp [WPath.path, hnp]
      obtain ⟨v, hcon, hnext⟩ : ∃ v, Consec p.path (n + 2) v ∧ (W.moved ratio b R).headD (W.width + 1) = f v := by
        rw [hrest]
        unfold WPath.path
        rw [ha, hA]
        cases R with
        | nil =>
          refine ⟨endV, ⟨startV :: A.map (· + 2), [], by simp⟩, ?_⟩
          simp only [List.map_nil, List.headD_nil]
          rw [hfend, hwidth]
        | cons k R =>
          exact ⟨k + 2, ⟨startV :: A.map (· + 2), R.map (· + 2) ++ [endV], by simp⟩, by simp⟩
      have hpair : (n + 2, v) ∈ g.pairs := (G.edges_iff _ _).mpr ⟨p, hp, hcon⟩
      have hno : n + 2 ∈ o := (B.ends _ hpair).1
      have hlt := hinc _ hpair
      simp only at hlt
      unfold Work.moved
      simp only
      rw [hnext, hrest, List.map_cons]
      congr 1
      split
      · rename_i hnb
        -- a shared node
        rw [hcol n hna]
        symm
        apply hcrit _ hno
        by_contra hc
        have hnq : n + 2 ∈ q.path := by
          simp only [WPath.path, hb, List.mem_cons, List.mem_append, List.mem_map]
          exact .inr (.inl ⟨n, hnb, rfl⟩)
        exact hpq (one_path B G hps h2 hno hc hp hq hnpath hnq)
      · rename_i hnb
        rw [hcol n hna]
        by_cases hc : Crit g rk (n + 2)
        · -- the next node is in the next column
          have hfn := hcrit _ hno hc
          cases hc with
          | step he hcv hrk =>
            rename_i v'
            obtain ⟨p', hp', hcon'⟩ := (G.edges_iff _ _).mp he
            have hpp : p' = p := by
              by_contra hpp
              have hm := (consec_mem hcon').1
              have : p' = q := by
                rcases h2 p hp q hq p' hp' with h | h | h
                · exact absurd h hpq
                · exact h.symm
                · exact absurd h.symm hpp
              subst this
              simp only [WPath.path, hb, List.mem_cons, List.mem_append, List.mem_map] at hm
              rcases hm with h | ⟨k, hk, h⟩ | h | h
              · exact (Nodes.inner n).1 h
              · obtain rfl : k = n := by simpa using h
                exact hnb hk
              · exact (Nodes.inner n).2 h
              · cases h
            subst hpp
            have hv'o := (B.ends _ he).2
            have h3 : f v' = rk v' := hcrit _ hv'o hcv
            have h4 := hinc _ he
            simp only at h4
            have : f v ≤ rk (n + 2) + 1 := by
              rcases consec_next hincf hcon (consec_mem hcon').2 h4 with h | h
              · rw [← h]; omega
              · omega
            rw [show f v - (rk (n + 2) + 1) = 0 by omega]
            simp only [List.range'_zero, Work.firstBest]
            exact hfn.symm
        · obtain ⟨e, he, hesrc, hetgt⟩ : ∃ e ∈ g.edges, e.src = n + 2 ∧ e.tgt = v := by
            obtain ⟨e, he, hee⟩ := List.mem_map.mp hpair
            exact ⟨e, he, congrArg Prod.fst hee, congrArg Prod.snd hee⟩
          have hpl := hplaced e he (by rw [hesrc]; exact hc)
          rw [hesrc, hetgt] at hpl
          rcases hpl with ⟨h3, h4⟩ | ⟨w, hw, hwn, h3, h4, h5, hmax⟩
          · rw [h3, Nat.sub_self]
            simp only [List.range'_zero, Work.firstBest]
            exact (hstay _ hno h4).symm
          · obtain ⟨hwo, hfn, hfw⟩ := hnear _ hw
            simp only at hwo hfn hfw
            -- what stands in the window on the path of the other witness
            have hbeside : ∀ c ∈ o, c ≠ n + 2 → f c = rk c → rk (n + 2) ≤ rk c → rk c < f v → ∃ k ∈ b, c = k + 2 ∧ W.nodeAt b (rk c) = some k := by
              intro c hco hcn hfc c1 c2
              have hcp : c ∉ p.path := by
                intro hcp
                rcases pairwise_total (hincr.and hincf) hcp hnpath with h | h | h
                · exact hcn h
                · omega
                · rcases consec_next hincf hcon hcp h.2 with h' | h'
                  · rw [h'] at hfc c2; omega
                  · omega
              obtain ⟨x, hx, hcx⟩ := on_path G hps (B.mem.mp hco)
              have hxq : x = q := by
                rcases h2 p hp q hq x hx with h | h | h
                · exact absurd h hpq
                · exact h.symm
                · subst h; exact absurd hcx hcp
              subst hxq
              have hcin : c ∈ x.inner := by
                simp only [WPath.path, List.mem_cons, List.mem_append, List.not_mem_nil, or_false] at hcx hcp
                rcases hcx with h | h | h
                · exact absurd (.inl h) hcp
                · exact h
                · exact absurd (.inr (.inr h)) hcp
              rw [hb] at hcin
              obtain ⟨k, hk, rfl⟩ := List.mem_map.mp hcin
              exact ⟨k, hk, rfl, (C.nodeAt_iff N hne hx hb).mpr ⟨hk, rfl⟩⟩
            have hsim : ∀ k ∈ b, W.nodeAt b (rk (k + 2)) = some k → W.similarity ratio b n (rk (k + 2)) =
                ratio (g.vertexStr (n + 2)) (g.vertexStr (k + 2)) := by
              intro k hk h
              unfold Work.similarity
              rw [h]
              simp only
              rw [vertexStr_node C hW hp hnp, vertexStr_node C hW hq (n := k) (by rw [hb]; exact List.mem_map.mpr ⟨k, hk, rfl⟩)]
            obtain ⟨kw, hkw, rfl, hnw⟩ := hbeside w hwo hwn hfw h4 h5
            have hcand : ∀ x, rk (n + 2) ≤ x → x < f v → W.similarity ratio b n x ≤ W.similarity ratio b n (rk (kw + 2)) ∧
                (x < rk (kw + 2) → W.similarity ratio b n x < W.similarity ratio b n (rk (kw + 2))) := by
              intro x x1 x2
              have hvm : v ∈ o := (B.ends _ hpair).2
              have hfv : f v ≤ rk endV := by
                rcases pairwise_total hincf (consec_mem hcon).2 (show endV ∈ p.path by simp [WPath.path]) with h | h | h
                · rw [h, hfend]
                · omega
                · have : ∀ u ∈ p.path, f u ≤ f endV := by
                    intro u hu
                    have hpw := hincf
                    unfold WPath.path at hpw hu
                    rw [← List.cons_append, List.pairwise_append] at hpw
                    rw [← List.cons_append, List.mem_append] at hu
                    rcases hu with hu | hu
                    · exact Nat.le_of_lt (hpw.2.2 u hu endV (by simp))
                    · rw [List.mem_singleton.mp hu]
                  have := this v (consec_mem hcon).2
                  omega
              obtain ⟨c, hc1, hc2, hc3⟩ := B.level x (by have := B.last; omega)
              have hfc := hcrit c hc1 hc2
              have hcn : c ≠ n + 2 := fun h => hc (h ▸ hc2)
              obtain ⟨k, hk, rfl, hnk⟩ := hbeside c hc1 hcn hfc (by omega) (by omega)
              have := hmax _ hc1 hcn hfc (by omega) (by omega)
              rw [← hc3, hsim k hk hnk, hsim kw hkw hnw]
              rw [hfc] at this
              exact this
            rw [hfn]
            apply firstBest_eq _ (window_sorted _ _)
            · rw [mem_window (by omega)]
              exact ⟨h4, h5⟩
            · intro z hz
              rw [mem_window (by omega)] at hz
              exact (hcand z hz.1 hz.2).1
            · intro z hz hzw
              rw [mem_window (by omega)] at hz
              exact (hcand z hz.1 hz.2).2 hzw
  exact key a [] rfl

/-! ### The table by ranks -/

/-- The table by any ranks that grow along the paths. -/
theorem shown_byRank {ws : List Witness} {r' : Ranking} {L : Nat → List VId} (G : GInv g ps) (hlenp : ps.length = ws.length)
    (hsig : ps.map WPath.sigil = ws.map Witness.sigil) (hs : ∀ p ∈ ps, p.sigil ≠ []) (hps : ps ≠ []) (N : Nodes W g ps) (R : ByRank g f m L r')
    (hinc : ∀ p ∈ g.pairs, f p.1 < f p.2) {N' : Nat} (hm : N' + 2 = m)
    (hlen : (mkTable ws g r').columns.length = N')
    (hcol : ∀ j < N', (mkTable ws g r').columns[j]? = colAt g ws.length L (j + 1)) (text : Nat → List Str)
    (htext : ∀ p ∈ ps, ∀ n ts, (n + 2, ts) ∈ p.segs → ts.map Token.str = text n) (V : Nat → Bool)
    (hV : ∀ x < N', V (x + 1) = false ↔ ∃ v, ∀ p ∈ ps, v ∈ p.inner ∧ f v = x + 1) :
    markedStrings (mkTable ws g r') =
      W.rows.map (fun a => (List.range N').map (fun x => (V (x + 1), (a.find? (fun n => f (n + 2) = x + 1)).map text))) := by
  have hpath : ∀ p ∈ ps, p.path.Pairwise (fun a b => f a < f b) := fun p hp => G.path_increasing hinc hp
  have hinner : ∀ p ∈ ps, p.inner.Pairwise (fun a b => f a < f b) := by
    intro p hp
    have := hpath p hp
    unfold WPath.path at this
    exact (List.pairwise_append.mp (List.pairwise_cons.mp this).2).1
  have hlenr : (mkTable ws g r').rows.length = ps.length := by rw [mkTable_rows, List.length_map, hlenp]
  have hrow : ∀ {k : Nat} {p : WPath}, ps[k]? = some p → ∃ a, W.rows[k]? = some a ∧ p.inner = a.map (· + 2) := by
    intro k p hp
    have := congrArg (fun l => l[k]?) N.rows
    simp only [List.getElem?_map, hp, Option.map_some] at this
    obtain ⟨a, h1, h2⟩ := Option.map_eq_some_iff.mp this.symm
    exact ⟨a, h1, h2.symm⟩
  have hlenR : W.rows.length = ps.length := by
    have := congrArg List.length N.rows
    simpa using this.symm
  have hcell : ∀ {k : Nat} {p : WPath} {a : List Nat} {row : Row}, ps[k]? = some p → p.inner = a.map (· + 2) →
      (mkTable ws g r').rows[k]? = some row → ∀ x, x < N' → cellAt row x = (a.find? (fun n => f (n + 2) = x + 1)).map text := by
    intro k p a row hp ha hro x hx
    have hpm := List.mem_of_getElem? hp
    obtain ⟨w, hw, _, hc⟩ := row_at hro
    have hpw : p.sigil = w.sigil := by
      have := congrArg (fun l => l[k]?) hsig
      simp only [List.getElem?_map, hp, hw, Option.map_some] at this
      exact Option.some.inj this
    have key := R.cell G hpm (hs p hpm) (hinner p hpm) ws.length (k := x + 1) (by omega)
    rw [← hcol x hx, hpw] at key
    have e : ((row.cells[x]?).join) = ((mkTable ws g r').columns[x]?).bind (fun c => dget c.tokens w.sigil) := by
      rw [hc, List.getElem?_map, List.getElem?_eq_getElem (by omega)]
      rfl
    unfold cellAt
    rw [e]
    have hinj : ∀ i ∈ a, ∀ j ∈ a, f (i + 2) = f (j + 2) → i = j := by
      intro i hi j hj h
      have hpw := hinner p hpm
      rw [ha] at hpw
      rcases pairwise_total hpw (List.mem_map.mpr ⟨i, hi, rfl⟩) (List.mem_map.mpr ⟨j, hj, rfl⟩) with h' | h' | h'
      · simpa using h'
      · omega
      · omega
    apply Option.ext
    intro y
    constructor
    · intro h
      obtain ⟨us, h4, rfl⟩ := Option.map_eq_some_iff.mp h
      obtain ⟨⟨v, ts'⟩, h5, h6, rfl⟩ := (key us).mp h4
      have hvm : v ∈ p.inner := List.mem_map.mpr ⟨_, h5, rfl⟩
      rw [ha] at hvm
      obtain ⟨n, hn, rfl⟩ := List.mem_map.mp hvm
      simp only at h6
      cases hf : a.find? (fun n => decide (f (n + 2) = x + 1)) with
      | none =>
        have := List.find?_eq_none.mp hf n hn
        simp [h6] at this
      | some n' =>
        have h7 : f (n' + 2) = x + 1 := by simpa using List.find?_some hf
        rw [hinj n' (List.mem_of_find?_eq_some hf) n hn (by omega), Option.map_some, htext p hpm n _ h5]
    · intro h
      obtain ⟨n, h1, rfl⟩ := Option.map_eq_some_iff.mp h
      have h2 : f (n + 2) = x + 1 := by simpa using List.find?_some h1
      have h3 : n + 2 ∈ p.inner := by rw [ha]; exact List.mem_map.mpr ⟨n, List.mem_of_find?_eq_some h1, rfl⟩
      obtain ⟨⟨v, us⟩, h5, h6⟩ := List.mem_map.mp h3
      simp only at h6
      subst h6
      rw [(key us).mpr ⟨_, h5, h2, rfl⟩, Option.map_some, htext p hpm n _ h5]
  have hvar : ∀ {x : Nat} {c : Column}, (mkTable ws g r').columns[x]? = some c → c.variant = V (x + 1) := by
    intro x c hc
    have hx : x < N' := by rw [← hlen]; exact (List.getElem?_eq_some_iff.mp hc).1
    have hxm : x + 1 < m := by omega
    have hca := hc
    rw [hcol x hx] at hca
    have hkn := colAt_nodup hca
    have hsub : ∀ σ ∈ c.tokens.map Prod.fst, σ ∈ ws.map Witness.sigil := by
      intro σ h
      obtain ⟨p, hp, rfl⟩ := (R.col_keys G hs hxm hca).1 σ h
      rw [← hsig]
      exact List.mem_map.mpr ⟨p, hp, rfl⟩
    have hsnd : (ws.map Witness.sigil).Nodup := by rw [← hsig]; exact G.sig_nd
    have hval : c.variant = false ↔ (L (x + 1)).length ≤ 1 ∧ c.tokens.length = ws.length := by
      have hca := hca
      unfold colAt at hca
      rw [columnLoop_eq] at hca
      split at hca
      · cases hca
      · injection hca with hca
        rw [← hca]
        simp
    have h3 : c.variant = false ↔ V (x + 1) = false := by
      rw [hval, hV x hx]
      constructor
      · rintro ⟨h4, h5⟩
        obtain ⟨v, hv, _⟩ := colAt_isSome.mp ⟨c, hca⟩
        refine ⟨v, fun p hp => ?_⟩
        have hall := subset_of_length hkn hsub (by rw [List.length_map, List.length_map, h5])
        have : p.sigil ∈ c.tokens.map Prod.fst := hall _ (by rw [← hsig]; exact List.mem_map.mpr ⟨p, hp, rfl⟩)
        obtain ⟨us, hus⟩ := exists_dget_of_mem_keys this
        obtain ⟨u, hu, hseg⟩ := R.col_entry G hs hxm hca hp hus
        have huv : u = v := by
          match hL : L (x + 1), h4 with
          | [], _ => rw [hL] at hv; cases hv
          | [y], _ => rw [hL] at hu hv; rw [List.mem_singleton.mp hu, List.mem_singleton.mp hv]
        subst huv
        exact ⟨List.mem_map.mpr ⟨_, hseg, rfl⟩, ((R.mem _ hxm _).mp hu).2⟩
      · rintro ⟨v, hv⟩
        obtain ⟨p0, hp0⟩ := List.exists_mem_of_ne_nil _ hps
        have hone : ∀ u ∈ L (x + 1), u = v := by
          intro u hu
          obtain ⟨h1, h2⟩ := (R.mem _ hxm _).mp hu
          have : ∃ p ∈ ps, u ∈ p.path := on_path G hps h1
          obtain ⟨p, hp, hup⟩ := this
          obtain ⟨h4, h5⟩ := hv p hp
          rcases pairwise_total (hpath p hp) hup (show v ∈ p.path by simp [WPath.path, h4]) with h | h | h
          · exact h
          · omega
          · omega
        have hvL : v ∈ L (x + 1) := by
          obtain ⟨h4, h5⟩ := hv p0 hp0
          obtain ⟨q, hq, rfl⟩ := List.mem_map.mp h4
          exact (R.mem _ hxm _).mpr ⟨(G.segs_in p0 hp0 q hq).1, h5⟩
        refine ⟨?_, ?_⟩
        · have hnd := R.nd _ hxm
          match hL : L (x + 1) with
          | [] => simp
          | [y] => simp
          | y :: z :: l =>
            rw [hL] at hnd hone
            have h1 := hone y (by simp)
            have h2 := hone z (by simp)
            rw [h1, h2] at hnd
            simp at hnd
        · have hall : ∀ σ ∈ ws.map Witness.sigil, σ ∈ c.tokens.map Prod.fst := by
            intro σ hσ
            rw [← hsig] at hσ
            obtain ⟨p, hp, rfl⟩ := List.mem_map.mp hσ
            obtain ⟨h4, h5⟩ := hv p hp
            obtain ⟨q, hq, rfl⟩ := List.mem_map.mp h4
            refine (colAt_mem hca).mpr ⟨q.1, hvL, inside_of_seg G hp hq, ?_⟩
            have := (G.toks_iff_of_ne (hs p hp)).mpr ⟨p, hp, rfl, hq⟩
            exact dget_isSome_iff.mp (by rw [this]; rfl)
          have h1 := nodup_length_le hkn hsub
          have h2 := nodup_length_le hsnd hall
          rw [List.length_map, List.length_map] at h1 h2
          omega
    cases hb : c.variant <;> cases hb' : V (x + 1) <;> simp_all
  rw [markedStrings_eq]
  unfold tableSummary
  simp only [List.map_map]
  apply List.ext_getElem?
  intro k
  rw [List.getElem?_map, List.getElem?_map]
  by_cases hk : k < ps.length
  · obtain ⟨p, hp⟩ : ∃ p, ps[k]? = some p := ⟨_, List.getElem?_eq_getElem hk⟩
    obtain ⟨a, hr, ha⟩ := hrow hp
    obtain ⟨row, hro⟩ : ∃ row, (mkTable ws g r').rows[k]? = some row := ⟨_, List.getElem?_eq_getElem (by rw [hlenr]; exact hk)⟩
    rw [hro, hr, Option.map_some, Option.map_some]
    congr 1
    simp only [Function.comp]
    obtain ⟨_, _, _, hcs⟩ := row_at hro
    have hcl : row.cells.length = N' := by rw [hcs, List.length_map, hlen]
    apply List.ext_getElem?
    intro x
    rw [List.getElem?_map]
    by_cases hx : x < N'
    · obtain ⟨c, hc⟩ : ∃ c, (mkTable ws g r').columns[x]? = some c := ⟨_, List.getElem?_eq_getElem (by omega)⟩
      obtain ⟨y, hy⟩ : ∃ y, row.cells[x]? = some y := ⟨_, List.getElem?_eq_getElem (by omega)⟩
      rw [List.getElem?_range hx, Option.map_some, List.getElem?_zip_eq_some]
      refine ⟨?_, ?_⟩
      · rw [List.getElem?_map, hc, Option.map_some, hvar hc]
      · have := hcell hp ha hro x hx
        unfold cellAt at this
        rw [hy] at this
        rw [List.getElem?_map, hy, Option.map_some, ← this]
        rfl
    · rw [List.getElem?_eq_none (by simp; omega), List.getElem?_eq_none (by simp; omega)]
      rfl
  · rw [List.getElem?_eq_none (by rw [hlenr]; omega), List.getElem?_eq_none (by omega)]
    rfl

end

end CollateX
