import Verif.Props.AStarCollate
/-
The A* aligner on texts that match token by token.
-/

namespace CollateX
open Spec

variable {α : Type}

/-- The texts match token by token. -/
def EditInput.Same (I : EditInput α) : Prop :=
  I.tokensA.length = I.tokensB.length ∧ ∀ (i : Nat) a b, I.tokensA[i]? = some a → I.tokensB[i]? = some b → I.kind a b = .full

/-- The diagonal from a cell on. -/
def diagonal (k m : Nat) : List (Nat × Nat) := (List.range' (k + 1) m).map (fun i => (i, i))

theorem diagonal_succ (k m : Nat) : diagonal k (m + 1) = (k + 1, k + 1) :: diagonal (k + 1) m := by
  unfold diagonal
  rw [List.range'_succ, List.map_cons]

theorem same_cell {I : EditInput α} (h : I.Same) {k : Nat} (hk : k < I.tokensA.length) : I.kindAt (k + 1) (k + 1) = .full := by
  have x1 : I.tokensA[k]? = some (I.tokensA[k]'hk) := List.getElem?_eq_getElem _
  have x2 : I.tokensB[k]? = some (I.tokensB[k]'(by rw [← h.1]; exact hk)) := List.getElem?_eq_getElem _
  unfold EditInput.kindAt
  rw [Nat.add_sub_cancel, x1, x2]
  exact h.2 k _ _ x1 x2

theorem diagonal_cost {I : EditInput α} (h : I.Same) : ∀ (m k : Nat), k + m ≤ I.tokensA.length →
    IsPath I.children (k, k) (diagonal k m) ∧ lastNode (k, k) (diagonal k m) = (k + m, k + m) ∧ pathCost I.cost (k, k) (diagonal k m) = 0
  | 0, _, _ => ⟨trivial, rfl, rfl⟩
  | m + 1, k, hk => by
    obtain ⟨h1, h2, h3⟩ := diagonal_cost h m (k + 1) (by omega)
    rw [diagonal_succ]
    refine ⟨⟨mem_children.mpr (Or.inr (Or.inr ⟨by have := h.1; simp only; omega, by simp only; omega, rfl⟩)), h1⟩, ?_, ?_⟩
    · rw [lastNode, h2]; congr 1 <;> omega
    · rw [pathCost, h3]
      unfold EditInput.cost
      rw [if_neg (by simp), if_pos (by simp), same_cell h (by omega)]
      rfl

theorem cost_nonneg (I : EditInput α) (a b : Nat × Nat) : 0 ≤ I.cost a b := by
  unfold EditInput.cost
  split
  · decide
  · split
    · exact MatchKind.cost_nonneg _
    · decide

theorem pathCost_nonneg (I : EditInput α) : ∀ (p : List (Nat × Nat)) (n : Nat × Nat), 0 ≤ pathCost I.cost n p
  | [], _ => le_rfl
  | e :: p, n => by
    have h1 := cost_nonneg I n e
    have h2 := pathCost_nonneg I p e
    rw [pathCost]; omega

/-- A path that costs nothing is the diagonal. -/
theorem free_path {I : EditInput α} : ∀ (p : List (Nat × Nat)) (k : Nat), IsPath I.children (k, k) p → pathCost I.cost (k, k) p ≤ 0 →
    p = diagonal k p.length
  | [], _, _, _ => rfl
  | e :: p, k, hp, hc => by
    rw [pathCost] at hc
    have h1 := cost_nonneg I (k, k) e
    have h2 := pathCost_nonneg I p e
    rcases mem_children.mp hp.1 with ⟨_, rfl⟩ | ⟨_, rfl⟩ | ⟨_, _, rfl⟩
    · have : I.cost (k, k) (k + 1, k) = 2 := by
        unfold EditInput.cost
        split
        · rfl
        · rw [if_neg (by simp)]
      simp only at hc h2
      omega
    · have : I.cost (k, k) (k, k + 1) = 2 := by
        unfold EditInput.cost
        split
        · rfl
        · rw [if_neg (by simp)]
      simp only at hc h2
      omega
    · rw [List.length_cons, diagonal_succ]
      simp only at hc h1 h2 ⊢
      rw [← free_path p (k + 1) hp.2 (by omega)]

theorem diagonal_last : ∀ (m k : Nat), lastNode (k, k) (diagonal k m) = (k + m, k + m)
  | 0, _ => rfl
  | m + 1, k => by rw [diagonal_succ, lastNode, diagonal_last m (k + 1)]; congr 1 <;> omega

theorem diagonal_flags {I : EditInput α} (h : I.Same) {flags : List (Nat × Nat)} : ∀ (m k : Nat), k + m ≤ I.tokensA.length →
    FlagsOn I flags (k, k) (diagonal k m) → (diagonal k m).filter (fun e => decide (e ∈ flags)) = diagonal k m
  | 0, _, _, _ => rfl
  | m + 1, k, hk, hf => by
    rw [diagonal_succ] at hf ⊢
    rw [List.filter_cons_of_pos (by simpa using hf.1 rfl (same_cell h (by omega))), diagonal_flags h m (k + 1) (by omega) hf.2]

theorem diagonal_walk (I : EditInput α) : ∀ (m k : Nat) (al : Dict Nat Nat) (sb : List α), (∀ e ∈ al, e.1 < k) → k + m ≤ I.tokensA.length →
    I.walkM (diagonal k m) (al, sb, k, k) =
      (al ++ (List.range' k m).map (fun i => (i, i)), sb ++ (I.tokensA.drop k).take m, k + m, k + m)
  | 0, k, al, sb, _, _ => by simp [diagonal, EditInput.walkM]
  | m + 1, k, al, sb, hal, hk => by
    rw [diagonal_succ, EditInput.walkM, addSegment_eq, Nat.add_sub_cancel]
    simp only
    have e1 : (I.tokensA.take k).drop k = [] := List.drop_eq_nil_iff.mpr (by rw [List.length_take]; omega)
    have e2 : (I.tokensB.take k).drop k = [] := List.drop_eq_nil_iff.mpr (by rw [List.length_take]; omega)
    have x1 : I.tokensA[k]? = some (I.tokensA[k]'(by omega)) := List.getElem?_eq_getElem _
    rw [e1, e2, List.append_nil, List.append_nil, dset_of_not_mem (d := al) (k := k) (by
      intro hm
      obtain ⟨e, he, h⟩ := List.mem_map.mp hm
      have := hal e he
      omega) k]
    rw [diagonal_walk I m (k + 1) _ _ (by
      intro e he
      rcases List.mem_append.mp he with he | he
      · have := hal e he; omega
      · rw [List.mem_singleton.mp he]; simp) (by omega)]
    rw [List.range'_succ, List.map_cons, x1]
    have : (I.tokensA.drop k).take (m + 1) = I.tokensA[k]'(by omega) :: (I.tokensA.drop (k + 1)).take m := by
      rw [List.drop_eq_getElem_cons (by omega), List.take_succ_cons]
    rw [this]
    simp [Nat.add_assoc, Nat.add_comm 1 m]

/-- Texts that match token by token are aligned token by token, and the superbase stays. -/
theorem align_same {I : EditInput α} (h : I.Same) (hne : I.tokensA ≠ []) :
    I.align = .ok ((List.range I.tokensA.length).map (fun i => (i, i)), I.tokensA) := by
  have hb : I.tokensB ≠ [] := fun e => hne (List.length_eq_zero_iff.mp (by rw [h.1, e]; rfl))
  obtain ⟨p, flags, h1, h2, h3, h4⟩ := search_ok I ⟨fun h => absurd h hne, fun h => absurd h hb⟩
  obtain ⟨r1, r2⟩ := C49_real_path _ _ _ _ h2
  obtain ⟨d1, d2, d3⟩ := diagonal_cost h I.tokensA.length 0 (by omega)
  have hle := C49_least_cost _ _ _ _ h2 (edit_consistent I) (diagonal 0 I.tokensA.length) d1 (by
    rw [d2]
    show I.isEnd _ = true
    have := h.1
    simp [EditInput.isEnd]; omega)
  have hle : pathCost I.cost (0, 0) p ≤ 0 := by
    rw [← d3]; exact hle
  have hp := free_path p 0 r1 hle
  have hlen : p.length = I.tokensA.length := by
    rw [hp, diagonal_last] at r2
    have r2 : I.isEnd (0 + p.length, 0 + p.length) = true := r2
    unfold EditInput.isEnd at r2
    simp only [decide_eq_true_eq] at r2
    omega
  rw [hlen] at hp
  unfold EditInput.align
  rw [h1]
  show Except.ok _ = Except.ok _
  rw [walk_filter]
  rw [hp] at h4
  rw [hp, diagonal_flags h _ _ (by omega) h4, diagonal_walk I _ _ _ _ (by simp) (by omega), addSegment_eq]
  congr 1
  refine Prod.ext ?_ ?_
  · simp [List.range_eq_range']
  · simp only [List.nil_append, List.drop_zero, Nat.zero_add, List.take_length]
    have e1 : (I.tokensA.take (I.tokensA.length - 1)).drop I.tokensA.length = [] := List.drop_eq_nil_iff.mpr (by rw [List.length_take]; omega)
    have e2 : (I.tokensB.take (I.tokensB.length - 1)).drop I.tokensA.length = [] :=
      List.drop_eq_nil_iff.mpr (by rw [List.length_take]; have := h.1; omega)
    rw [e1, e2, List.append_nil, List.append_nil]

/-! ### The collation -/

/-- What holds between two witnesses: all stand on the same vertices. -/
structure SameInv (s : VGraph × Dict Token VId × List Token) (ps : List WPath) (S : List Token) (V : List VId) : Prop where
  ginv : GInv s.1 ps
  ne : ps ≠ []
  base : s.2.2 = S
  len : V.length = S.length
  at' : ∀ (i : Nat) a v, S[i]? = some a → V[i]? = some v → dget s.2.1 a = some v
  inner : ∀ p ∈ ps, p.inner = V

theorem SameInv.step {kind : Token → Token → MatchKind} {s : VGraph × Dict Token VId × List Token} {ps : List WPath} {S : List Token}
    {V : List VId} (J : SameInv s ps S V) {w : Witness} (hσ : w.sigil ∉ ps.map WPath.sigil) (hne : S ≠ []) (hnd : w.tokens.Nodup)
    (hsame : EditInput.Same ⟨S, w.tokens, kind⟩) :
    ∃ s' p, starStep kind s w = .ok s' ∧ SameInv s' (ps ++ [p]) S V ∧ p.sigil = w.sigil ∧ p.segs.map Prod.snd = w.tokens.map (fun t => [t]) := by
  obtain ⟨g, t2v, S'⟩ := s
  obtain rfl : S' = S := J.base
  have G : GInv g ps := J.ginv
  have hlen : S'.length = w.tokens.length := hsame.1
  have hVl : V.length = S'.length := J.len
  have hwne : w.tokens ≠ [] := fun e => hne (List.length_eq_zero_iff.mp (by rw [hlen, e]; rfl))
  have hal := align_same hsame hne
  simp only at hal
  obtain ⟨b0, _⟩ : ∃ b, b ∈ w.tokens := List.exists_mem_of_ne_nil _ hwne
  let F : Nat × Nat → Token × VId := fun p => ((w.tokens[p.1]?).getD b0, (V[p.2]?).getD 0)
  have hF : mapE (starEntry t2v S' w.tokens) ((List.range S'.length).map (fun i => (i, i))) =
      .ok (((List.range S'.length).map (fun i => (i, i))).map F) := by
    refine mapE_ok ?_
    rintro ⟨j, i⟩ hji
    obtain ⟨i', hi', e⟩ := List.mem_map.mp hji
    injection e with e1 e2
    subst e1 e2
    have hi := List.mem_range.mp hi'
    have x1 : w.tokens[i']? = some (w.tokens[i']'(by omega)) := List.getElem?_eq_getElem _
    have x2 : S'[i']? = some (S'[i']'hi) := List.getElem?_eq_getElem _
    have x3 : V[i']? = some (V[i']'(by omega)) := List.getElem?_eq_getElem _
    have x4 : dget t2v S'[i'] = some V[i'] := J.at' i' _ _ x2 x3
    unfold starEntry lgetE dgetE
    simp only [x1, x2, F, bind_ok, x3, x4, Option.getD_some]
  rw [List.map_map] at hF
  set al : Dict Token VId := (List.range S'.length).map (F ∘ fun i => (i, i)) with hal1
  have hkeys : al.map Prod.fst = w.tokens := by
    apply List.ext_getElem?
    intro i
    rw [hal1, List.map_map, List.getElem?_map]
    rcases Nat.lt_or_ge i S'.length with hi | hi
    · rw [List.getElem?_range hi]
      have x1 : w.tokens[i]? = some (w.tokens[i]'(by omega)) := List.getElem?_eq_getElem _
      simp only [Option.map_some, Function.comp, F, x1, Option.getD_some]
    · rw [List.getElem?_eq_none (by simpa using hi), List.getElem?_eq_none (by omega)]
      rfl
  have hget : ∀ {i : Nat} {b : Token}, w.tokens[i]? = some b → ∃ v, V[i]? = some v ∧ dget al b = some v := by
    intro i b hi
    obtain ⟨hil, e⟩ := List.getElem?_eq_some_iff.mp hi
    have x3 : V[i]? = some (V[i]'(by omega)) := List.getElem?_eq_getElem _
    refine ⟨_, x3, dget_of_mem (by rw [hkeys]; exact hnd) ?_⟩
    rw [hal1]
    refine List.mem_map.mpr ⟨i, List.mem_range.mpr (by omega), ?_⟩
    simp only [Function.comp, F, hi, x3, Option.getD_some]
  obtain ⟨h, hh⟩ := G.lay
  have hlohi := G.rank_bounds J.ne hh
  obtain ⟨q, hq⟩ := List.exists_mem_of_ne_nil _ J.ne
  have hVin : ∀ v ∈ V, v ∈ g.vertices ∧ v ≠ startV ∧ v ≠ endV := by
    intro v hv
    rw [← J.inner q hq] at hv
    obtain ⟨c, hc, rfl⟩ := List.mem_map.mp hv
    have := G.segs_in q hq c hc
    exact ⟨this.1, this.2.1, this.2.2.1⟩
  have hVpw : V.Pairwise (fun a b => h a < h b) := by
    have := G.path_increasing hh hq
    unfold WPath.path at this
    rw [J.inner q hq] at this
    exact this.sublist ((List.sublist_append_left _ _).trans (List.sublist_cons_self _ _))
  have hAOK : AlignOK g h w.tokens al := by
    refine ⟨hh, fun v hv hne => (hlohi v hv).1 hne, fun v hv hne => (hlohi v hv).2 hne, ?_, ?_⟩
    · intro t ht v hv
      obtain ⟨j, hj⟩ := List.getElem?_of_mem ht
      obtain ⟨v', x1, x2⟩ := hget hj
      rw [hv] at x2
      injection x2 with x2
      subst x2
      exact hVin v (List.mem_of_getElem? x1)
    · rw [List.pairwise_iff_getElem]
      intro j j' hj hj' hlt v v' hv hv'
      obtain ⟨u, x1, x2⟩ := hget (List.getElem?_eq_getElem hj)
      obtain ⟨u', x1', x2'⟩ := hget (List.getElem?_eq_getElem hj')
      rw [hv] at x2
      rw [hv'] at x2'
      injection x2 with x2
      injection x2' with x2'
      subst x2 x2'
      obtain ⟨l1, e1⟩ := List.getElem?_eq_some_iff.mp x1
      obtain ⟨l2, e2⟩ := List.getElem?_eq_some_iff.mp x1'
      have := (List.pairwise_iff_getElem.mp hVpw) j j' l1 l2 hlt
      rw [e1, e2] at this
      exact ⟨fun e => by subst e; omega, by omega⟩
  have G' := G.merge hσ hwne hAOK
  have hinner : (newSegs al g.next w.tokens).map Prod.fst = V := by
    apply List.ext_getElem?
    intro i
    rcases Nat.lt_or_ge i w.tokens.length with hi | hi
    · obtain ⟨v, hv⟩ := newSegs_getElem? (al := al) (n := g.next) i _ (List.getElem?_eq_getElem hi)
      obtain ⟨u, x1, x2⟩ := hget (List.getElem?_eq_getElem hi)
      rw [List.getElem?_map, hv, x1]
      obtain ⟨t, _, e, hc⟩ := newSegs_mem (List.mem_of_getElem? hv)
      injection e with e
      subst e
      rcases hc with hc | hc
      · rw [x2] at hc; injection hc with hc; rw [hc]; rfl
      · rw [x2] at hc; cases hc.1
    · rw [List.getElem?_eq_none (by simpa [newSegs_length] using hi), List.getElem?_eq_none (by omega)]
  have hm : (merge g w.sigil w.tokens al).2 = [] := by
    have hout := mergeLoop_out w.sigil al w.tokens { g := g, t2v := [], last := startV } G.fresh
      (fun t ht v hv => (hAOK.inner t ht v hv).1) (by rw [hinner]; exact hVpw.imp (fun h1 e => by subst e; omega))
    have : ∀ t, t ∉ (merge g w.sigil w.tokens al).2.map Prod.fst := by
      intro t ht
      rcases (hout.t2v_keys t).mp ht with h1 | ⟨h1, h2⟩
      · cases h1
      · obtain ⟨j, hj⟩ := List.getElem?_of_mem h1
        obtain ⟨u, _, x2⟩ := hget hj
        rw [h2] at x2; cases x2
    exact List.map_eq_nil_iff.mp (List.eq_nil_iff_forall_not_mem.mpr this)
  refine ⟨((merge g w.sigil w.tokens al).1, t2v, S'), ⟨w.sigil, newSegs al g.next w.tokens⟩, ?_, ?_, rfl, newSegs_snd _ _ _⟩
  · unfold starStep
    show ((EditInput.mk S' w.tokens kind).align >>= _) = _
    rw [hal]
    show (mapE (starEntry t2v S' w.tokens) _ >>= _) = _
    rw [hF]
    show Except.ok _ = _
    rw [hm]
    rfl
  · refine ⟨G', by simp, rfl, J.len, J.at', ?_⟩
    intro p hp
    rcases List.mem_append.mp hp with hp | hp
    · exact J.inner p hp
    · rw [List.mem_singleton.mp hp]; exact hinner

theorem starLoop_same {kind : Token → Token → MatchKind} {S : List Token} {V : List VId} (hne : S ≠ []) :
    ∀ (ws : List Witness) (s : VGraph × Dict Token VId × List Token) (ps : List WPath), SameInv s ps S V →
    (ps.map WPath.sigil ++ ws.map Witness.sigil).Nodup → (∀ w ∈ ws, w.tokens.Nodup) → (∀ w ∈ ws, EditInput.Same ⟨S, w.tokens, kind⟩) →
    ∃ s' qs, starLoop kind ws s = .ok s' ∧ SameInv s' (ps ++ qs) S V ∧
      List.Forall₂ (fun (p : WPath) (w : Witness) => p.sigil = w.sigil ∧ p.segs.map Prod.snd = w.tokens.map (fun t => [t])) qs ws
  | [], s, ps, J, _, _, _ => ⟨s, [], rfl, by rw [List.append_nil]; exact J, List.Forall₂.nil⟩
  | w :: ws, s, ps, J, hsg, hnd, hs => by
    rw [List.map_cons] at hsg
    obtain ⟨s', p, h1, h2, h3, h4⟩ := J.step (kind := kind) (w := w)
      (fun hm => (List.nodup_append.mp hsg).2.2 _ hm _ (by simp) rfl) hne (hnd w (by simp)) (hs w (by simp))
    obtain ⟨s'', qs, k1, k2, k3⟩ := starLoop_same hne ws s' (ps ++ [p]) h2 (by
      rw [List.map_append, List.map_singleton, h3, List.append_assoc]; exact hsg) (fun x hx => hnd x (by simp [hx]))
      (fun x hx => hs x (by simp [hx]))
    refine ⟨s'', p :: qs, ?_, ?_, List.Forall₂.cons ⟨h3, h4⟩ k3⟩
    · rw [starLoop, h1]; exact k1
    · rw [List.append_assoc, List.singleton_append] at k2; exact k2

end CollateX
