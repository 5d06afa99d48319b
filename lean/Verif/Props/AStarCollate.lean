import Verif.Proofs.AStarCollate
import Verif.Proofs.Collated
import Verif.Props.Near
/-
C118: what the collation with the A* aligner does.
-/

namespace CollateX
open Spec

variable {kind : Token → Token → MatchKind}

/-- The state after the first witness. -/
theorem StarInv.first {w : Witness} (hne : w.tokens ≠ []) (hnd : w.tokens.Nodup) :
    ∃ p, StarInv kind ((merge VGraph.init w.sigil w.tokens []).1, (merge VGraph.init w.sigil w.tokens []).2, w.tokens) [p] ∧
      p.sigil = w.sigil ∧ p.segs.map Prod.snd = w.tokens.map (fun t => [t]) ∧
      ∀ t, (∃ v, dget (merge VGraph.init w.sigil w.tokens []).2 t = some v) → t ∈ w.tokens := by
  have hAOK : AlignOK VGraph.init (fun v => if v = startV then 0 else 1) w.tokens [] := by
    refine ⟨by decide, by decide, by decide, by simp [dget], ?_⟩
    exact List.pairwise_of_forall (fun _ _ v v' h => by simp [dget] at h)
  have G := GInv.init.merge (σ := w.sigil) (by simp) hne hAOK
  have hQnd : ((newSegs [] VGraph.init.next w.tokens).map Prod.fst).Nodup :=
    newSegs_nodup (by simp [dget]) (hAOK.mono.imp (fun hp v v' h1 h2 => (hp v v' h1 h2).1))
  have hout := mergeLoop_out w.sigil [] w.tokens { g := VGraph.init, t2v := [], last := startV } GInv.init.fresh (by simp [dget]) hQnd
  have hmk := mergeLoop_keys w.sigil [] w.tokens { g := VGraph.init, t2v := [], last := startV } (by simp)
  have hm2 : (merge VGraph.init w.sigil w.tokens []).2 =
      (w.tokens.foldl (mergeStep w.sigil []) { g := VGraph.init, t2v := [], last := startV }).t2v := rfl
  rw [← hm2] at hmk
  have hsound : ∀ {t : Token} {v : VId}, dget (merge VGraph.init w.sigil w.tokens []).2 t = some v →
      t ∈ w.tokens ∧ (v, [t]) ∈ newSegs [] VGraph.init.next w.tokens := by
    intro t v hv
    rcases hout.t2v_sound t v (dget_mem hv) with h | h
    · cases h
    · exact ⟨h.1, h.2.2⟩
  have hall : ∀ {t : Token}, t ∈ w.tokens → ∃ v, dget (merge VGraph.init w.sigil w.tokens []).2 t = some v := by
    intro t ht
    have := (hout.t2v_keys t).mpr (Or.inr ⟨ht, rfl⟩)
    obtain ⟨⟨t', v⟩, h3, h4⟩ := List.mem_map.mp this
    simp only at h4
    subst h4
    exact ⟨v, dget_of_mem hmk h3⟩
  have huniq : ∀ {v : VId} {l l' : List Token}, (v, l) ∈ newSegs [] VGraph.init.next w.tokens →
      (v, l') ∈ newSegs [] VGraph.init.next w.tokens → l = l' :=
    fun h1 h2 => Option.some.inj ((dget_of_mem hQnd h1).symm.trans (dget_of_mem hQnd h2))
  -- the vertex of the token in a given place
  have hat : ∀ {i : Nat} {t : Token} {v : VId}, w.tokens[i]? = some t → dget (merge VGraph.init w.sigil w.tokens []).2 t = some v →
      (newSegs [] VGraph.init.next w.tokens)[i]? = some (v, [t]) := by
    intro i t v hi hv
    obtain ⟨i', h1, h2⟩ := newSegs_index (hsound hv).2
    have hii : i' = i := by
      obtain ⟨l1, e1⟩ := List.getElem?_eq_some_iff.mp h1
      obtain ⟨l2, e2⟩ := List.getElem?_eq_some_iff.mp hi
      exact (List.Nodup.getElem_inj_iff hnd).mp (e1.trans e2.symm)
    rw [← hii]; exact h2
  obtain ⟨h, hh⟩ := G.lay
  have hpw := G.path_increasing hh (List.mem_singleton.mpr rfl)
  refine ⟨⟨w.sigil, newSegs [] VGraph.init.next w.tokens⟩, ⟨G, by simp, hnd, fun t ht => hall ht, ⟨h, hh, ?_⟩, ?_, ?_, ?_, ?_⟩,
    rfl, newSegs_snd _ _ _, fun t ⟨v, hv⟩ => (hsound hv).1⟩
  · rw [List.pairwise_iff_getElem]
    intro i j hi hj hij v v' hv hv'
    have x1 := hat (List.getElem?_eq_getElem hi) hv
    have x2 := hat (List.getElem?_eq_getElem hj) hv'
    have hin : ((newSegs [] VGraph.init.next w.tokens).map Prod.fst).Pairwise (fun a b => h a < h b) := by
      refine hpw.sublist ?_
      exact (List.sublist_append_left _ _).trans (List.sublist_cons_self _ _)
    obtain ⟨l1, e1⟩ := List.getElem?_eq_some_iff.mp x1
    obtain ⟨l2, e2⟩ := List.getElem?_eq_some_iff.mp x2
    have := (List.pairwise_iff_getElem.mp hin) i j (by simpa using l1) (by simpa using l2) hij
    simpa [e1, e2] using this
  · intro t v hv
    exact ⟨_, List.mem_singleton.mpr rfl, (hsound hv).2⟩
  · intro t v hv p hp l hl
    rw [List.mem_singleton.mp hp] at hl
    exact ⟨t, huniq hl (hsound hv).2, Or.inl rfl⟩
  · intro t t' v hv hv'
    exact List.head_eq_of_cons_eq (huniq (hsound hv).2 (hsound hv').2)
  · intro v hv hvs hve
    obtain ⟨p, hp, h1⟩ := G.cover v hv hvs hve
    rw [List.nil_append, List.mem_singleton] at hp
    subst hp
    obtain ⟨⟨v', l⟩, h2, h3⟩ := List.mem_map.mp h1
    simp only at h3
    subst h3
    obtain ⟨b, hb, e, _⟩ := newSegs_mem h2
    subst e
    obtain ⟨u, hu⟩ := hall hb
    obtain ⟨i, x1, x2⟩ := newSegs_index h2
    rw [hat x1 hu] at x2
    injection x2 with x2
    injection x2 with x2
    subst x2
    exact ⟨b, hu⟩

/-- The loop over the other witnesses. -/
theorem starLoop_inv : ∀ (ws : List Witness) (s : VGraph × Dict Token VId × List Token) (ps : List WPath), StarInv kind s ps →
    (∀ w ∈ ws, w.tokens ≠ []) → (ps.map WPath.sigil ++ ws.map Witness.sigil).Nodup → (ws.flatMap Witness.tokens).Nodup →
    (∀ w ∈ ws, ∀ b ∈ w.tokens, dget s.2.1 b = none) →
    (∀ w ∈ ws, ∀ a b b', b ∈ w.tokens → b' ∈ w.tokens → kind a b = .full → kind a b' = .full → b = b') →
    (∃ s' qs, starLoop kind ws s = .ok s' ∧ StarInv kind s' (ps ++ qs) ∧
      List.Forall₂ (fun (p : WPath) (w : Witness) => p.sigil = w.sigil ∧ p.segs.map Prod.snd = w.tokens.map (fun t => [t])) qs ws) ∨
    (starLoop kind ws s = .error .indexError ∧ ((s.2.2 = [] ∧ ws ≠ []) ∨ ∃ w ∈ ws.dropLast, w.tokens.length = 1))
  | [], s, ps, J, _, _, _, _, _ => Or.inl ⟨s, [], rfl, by rw [List.append_nil]; exact J, List.Forall₂.nil⟩
  | w :: ws, s, ps, J, hne, hsg, hnd, hnew, hone => by
    by_cases hbase : s.2.2 = []
    · right
      refine ⟨?_, Or.inl ⟨hbase, by simp⟩⟩
      have herr : (EditInput.mk s.2.2 w.tokens kind).align = .error .indexError := by
        unfold EditInput.align EditInput.search
        rw [if_pos (Or.inl ⟨hbase, hne w (by simp)⟩)]
        rfl
      rw [starLoop, starStep, herr]
      rfl
    · have hnd' := List.nodup_append.mp hnd
      rw [List.map_cons] at hsg
      obtain ⟨s', p, h1, h2, h3, h4, h5, h6⟩ := J.step (w := w)
        (fun hm => (List.nodup_append.mp hsg).2.2 _ hm _ (by simp) rfl) (hne w (by simp)) hnd'.1
        (hnew w (by simp)) (hone w (by simp)) hbase
      have := starLoop_inv ws s' (ps ++ [p]) h2 (fun x hx => hne x (by simp [hx])) (by
          rw [List.map_append, List.map_singleton, h3, List.append_assoc]; exact hsg) hnd'.2.1 (by
          intro x hx b hb
          cases hd : dget s'.2.1 b with
          | none => rfl
          | some v =>
            rcases h5 b ⟨v, hd⟩ with h | ⟨v', h⟩
            · exact absurd rfl (hnd'.2.2 b h b (List.mem_flatMap.mpr ⟨x, hx, hb⟩))
            · rw [hnew x (by simp [hx]) b hb] at h; cases h)
        (fun x hx => hone x (by simp [hx]))
      rw [starLoop, h1]
      show (∃ s'' qs, starLoop kind ws s' = _ ∧ _) ∨ (starLoop kind ws s' = _ ∧ _)
      rcases this with ⟨s'', qs, k1, k2, k3⟩ | ⟨k1, k2⟩
      · refine Or.inl ⟨s'', p :: qs, k1, ?_, List.Forall₂.cons ⟨h3, h4⟩ k3⟩
        rw [List.append_assoc, List.singleton_append] at k2
        exact k2
      · refine Or.inr ⟨k1, Or.inr ?_⟩
        rcases k2 with ⟨k2, k3⟩ | ⟨x, hx, k2⟩
        · refine ⟨w, by rw [List.dropLast_cons_of_ne_nil k3]; simp, ?_⟩
          have := List.length_pos_iff.mpr (hne w (by simp))
          by_contra hc
          exact h6 (by omega) k2
        · refine ⟨x, ?_, k2⟩
          have : ws ≠ [] := fun e => by rw [e] at hx; cases hx
          rw [List.dropLast_cons_of_ne_nil this]
          exact List.mem_cons_of_mem _ hx

/-- The paths of the witnesses, token by token. -/
def PathsOf (ps : List WPath) (ws : List Witness) : Prop :=
  List.Forall₂ (fun (p : WPath) (w : Witness) => p.sigil = w.sigil ∧ p.segs.map Prod.snd = w.tokens.map (fun t => [t])) ps ws

theorem PathsOf.sigla {ps : List WPath} {ws : List Witness} (h : PathsOf ps ws) : ps.map WPath.sigil = ws.map Witness.sigil := by
  rw [← List.forall₂_eq_eq_eq, List.forall₂_map_left_iff, List.forall₂_map_right_iff]
  exact List.Forall₂.imp (fun _ _ h => h.1) h

theorem PathsOf.carries {g : VGraph} {ps : List WPath} {ws : List Witness} (h : PathsOf ps ws) (G : GInv g ps) (hs : ∀ w ∈ ws, w.sigil ≠ [])
    {v : VId} {σ : Str} {ts : List Token} : CarriesAt g v σ ts ↔ ∃ q ∈ ps, q.sigil = σ ∧ (v, ts) ∈ q.segs := by
  have hpne : ∀ q ∈ ps, q.sigil ≠ [] := by
    intro q hq
    have : q.sigil ∈ ws.map Witness.sigil := h.sigla ▸ List.mem_map.mpr ⟨q, hq, rfl⟩
    obtain ⟨x, hx, e⟩ := List.mem_map.mp this
    rw [← e]; exact hs x hx
  constructor
  · rintro ⟨x, hx, hd⟩
    by_cases hσ : σ = []
    · subst hσ
      obtain ⟨_, q, hq, h0, _⟩ := G.tok0 v x hx ts hd
      exact absurd h0 (hpne q hq)
    · exact (G.tok v x hx σ hσ ts).mp hd
  · rintro ⟨q, hq, rfl, hm⟩
    obtain ⟨x, hx⟩ := exists_dget_of_mem_keys (G.segs_in q hq _ hm).1
    exact ⟨x, hx, (G.tok v x hx _ (hpne q hq) ts).mpr ⟨q, hq, rfl, hm⟩⟩

theorem PathsOf.reads {g : VGraph} {ps : List WPath} {ws : List Witness} (h : PathsOf ps ws) (G : GInv g ps) (hs : ∀ w ∈ ws, w.sigil ≠ [])
    {x : Witness} (hx : x ∈ ws) : ∃ q ∈ ps, Reads g x.sigil q.path x.tokens := by
  obtain ⟨k, hk⟩ := List.getElem?_of_mem hx
  obtain ⟨hkl, hk⟩ := List.getElem?_eq_some_iff.mp hk
  have hkl' : k < ps.length := by rw [List.Forall₂.length_eq h]; exact hkl
  have hr := (List.forall₂_iff_get.mp h).2 k hkl' hkl
  simp only [List.get_eq_getElem, hk] at hr
  set q := ps[k] with hq
  have hqm : q ∈ ps := List.getElem_mem _
  refine ⟨q, hqm, fun u v huv => (G.edges_iff u v).mpr ⟨q, hqm, huv⟩, ⟨q.segs, rfl, ?_, ?_⟩, ?_, G.path_nodup hqm⟩
  · rw [hr.2, ← List.flatMap_def]
    exact List.flatMap_singleton' _
  · intro c hc
    exact ⟨(G.segs_in q hqm c hc).2.2.2, (h.carries G hs).mpr ⟨q, hqm, hr.1, hc⟩⟩
  · intro v us hc
    obtain ⟨q', hq', h3, h4⟩ := (h.carries G hs).mp hc
    obtain rfl := sigil_unique G hq' hqm (by rw [h3, hr.1])
    unfold WPath.path WPath.inner
    simp only [List.mem_cons, List.mem_append, List.mem_map]
    exact Or.inr (Or.inl ⟨_, h4, rfl⟩)

/-- What the graph of the A* aligner should be: it has no cycles, each witness can be read along a path, and each vertex has a token such
that every other token on it matches that one fully. -/
structure Spec.StarGraph (kind : Token → Token → MatchKind) (ws : List Witness) (g : VGraph) : Prop where
  acyclic : NoCycle g.pairs
  reads : ∀ w ∈ ws, ∃ path, Reads g w.sigil path w.tokens
  matched : ∀ v ∈ g.vertices, v ≠ startV → v ≠ endV → ∃ t, (∃ w ∈ ws, CarriesAt g v w.sigil [t]) ∧
    ∀ w ∈ ws, ∀ ts, CarriesAt g v w.sigil ts → ∃ b, ts = [b] ∧ (b = t ∨ kind t b = .full)

/-- C118, what holds. With any match function under which no two tokens of a witness match the same token, the collation with the A* aligner
either fails with an IndexError or gives a graph without cycles, along whose paths each witness can be read, and on whose vertices
all tokens match the first one. It fails only if a witness other than the first and the last has only one token. What is missing: that it
never fails (`C118_fails`), and the case that two tokens of a witness match the same token (`C118_cycle`). -/
theorem C118_graph_partial (kind : Token → Token → MatchKind) (ws : List Witness) (hws : ws ≠ []) (hne : ∀ w ∈ ws, w.tokens ≠ [])
    (hsg : (ws.map Witness.sigil).Nodup) (hs : ∀ w ∈ ws, w.sigil ≠ []) (hnd : (ws.flatMap Witness.tokens).Nodup)
    (hone : ∀ w ∈ ws, ∀ a b b', b ∈ w.tokens → b' ∈ w.tokens → kind a b = .full → kind a b' = .full → b = b') :
    (∃ g, starCollate kind ws = .ok g ∧ StarGraph kind ws g) ∨
    (starCollate kind ws = .error .indexError ∧ ∃ w ∈ ws.tail.dropLast, w.tokens.length = 1) := by
  cases ws with
  | nil => exact absurd rfl hws
  | cons w ws =>
    have hnd' := List.nodup_append.mp hnd
    obtain ⟨p, J, p1, p2, p3⟩ := StarInv.first (kind := kind) (w := w) (hne w (by simp)) hnd'.1
    have := starLoop_inv ws _ _ J (fun x hx => hne x (by simp [hx])) (by simpa [p1] using hsg) hnd'.2.1 (by
        intro x hx b hb
        cases hd : dget (merge VGraph.init w.sigil w.tokens []).2 b with
        | none => rfl
        | some v => exact absurd rfl (hnd'.2.2 b (p3 b ⟨v, hd⟩) b (List.mem_flatMap.mpr ⟨x, hx, hb⟩)))
      (fun x hx => hone x (by simp [hx]))
    rcases this with ⟨s, qs, k1, k2, k3⟩ | ⟨k1, k2⟩
    · left
      have hall : PathsOf (p :: qs) (w :: ws) := List.Forall₂.cons ⟨p1, p2⟩ k3
      rw [List.singleton_append] at k2
      have G := k2.ginv
      refine ⟨s.1, ?_, Layered.noCycle G.lay, ?_, ?_⟩
      · rw [starCollate, k1]; rfl
      · intro x hx
        obtain ⟨q, _, h⟩ := hall.reads G hs hx
        exact ⟨q.path, h⟩
      · intro v hv hvs hve
        obtain ⟨t, ht⟩ := k2.founder v hv hvs hve
        obtain ⟨q, hq, h1⟩ := k2.on t v ht
        refine ⟨t, ?_, ?_⟩
        · have : q.sigil ∈ (w :: ws).map Witness.sigil := hall.sigla ▸ List.mem_map.mpr ⟨q, hq, rfl⟩
          obtain ⟨x, hx, e⟩ := List.mem_map.mp this
          exact ⟨x, hx, (hall.carries G hs).mpr ⟨q, hq, e.symm, h1⟩⟩
        · intro x hx ts hc
          obtain ⟨q', hq', _, h3⟩ := (hall.carries G hs).mp hc
          exact k2.full t v ht q' hq' ts h3
    · right
      refine ⟨by rw [starCollate, k1]; rfl, ?_⟩
      rcases k2 with ⟨k2, _⟩ | k2
      · exact absurd k2 (hne w (by simp))
      · exact k2

/-! ### Where it fails, and a case -/

/-- Two tokens match if their texts are equal. -/
def wordKind (a b : Token) : MatchKind := if a.str = b.str then .full else .no

/-- Three witnesses with one word each: the superbase is empty after the second one, and the collation fails. -/
theorem C118_fails : starCollate wordKind (indexed 0 [wordsWitness "A" ["a"], wordsWitness "B" ["b"], wordsWitness "C" ["c"]]) =
    .error .indexError := by decide +kernel

/-- A witness with a word twice against a witness with that word once: both tokens come to stand on one vertex, and the graph has a cycle. -/
theorem C118_cycle : ∃ g, starCollate wordKind (indexed 0 [wordsWitness "A" ["a"], wordsWitness "B" ["a", "a"]]) = .ok g ∧ ¬ NoCycle g.pairs := by
  have h : ((starCollate wordKind (indexed 0 [wordsWitness "A" ["a"], wordsWitness "B" ["a", "a"]])).map (fun g => g.pairs)) =
      .ok [(0, 2), (2, 1), (2, 2)] := by decide +kernel
  cases hc : starCollate wordKind (indexed 0 [wordsWitness "A" ["a"], wordsWitness "B" ["a", "a"]]) with
  | error e => rw [hc] at h; cases h
  | ok g =>
    rw [hc] at h
    injection h with h
    refine ⟨g, rfl, fun hn => ?_⟩
    have h' : g.pairs = [(0, 2), (2, 1), (2, 2)] := h
    have := hn 2 1 (by rw [h']; exact Walk.snoc (Walk.nil 2) (by simp))
    omega

/-- The last word of the first witness is dropped from the superbase after the second one, so that the same word of the third witness is
not aligned with it: there are two vertices with the word `b`, one for each witness. -/
theorem C118_lost : ((starCollate wordKind (indexed 0 [wordsWitness "A" ["a", "b"], wordsWitness "B" ["a", "c"], wordsWitness "C" ["a", "b"]])).map
    (fun g => g.nodes.map (fun p => p.2.tokens.map (fun q => (q.1, q.2.map Token.str))))) =
    .ok [[], [], [(S "A", [S "a"]), (S "B", [S "a"]), (S "C", [S "a"])], [(S "A", [S "b"])], [(S "B", [S "c"])], [(S "C", [S "b"])]] := by
  decide +kernel

/-- Four witnesses that meet the hypotheses of `C118_graph_partial`: no word twice in a witness, and at least two words in each. -/
def starWitnesses : List Witness := indexed 0
  [wordsWitness "A" ["the", "black", "cat"], wordsWitness "B" ["the", "cat"], wordsWitness "C" ["black", "dog", "the"],
    wordsWitness "D" ["the", "black", "dog"]]

example : (∃ g, starCollate wordKind starWitnesses = .ok g ∧ StarGraph wordKind starWitnesses g) := by
  have h1 : ∀ w ∈ starWitnesses, w.tokens ≠ [] := by decide +kernel
  have h2 : (starWitnesses.map Witness.sigil).Nodup := by decide +kernel
  have h3 : ∀ w ∈ starWitnesses, w.sigil ≠ [] := by decide +kernel
  have h4 : (starWitnesses.flatMap Witness.tokens).Nodup := by decide +kernel
  have h5 : ∀ w ∈ starWitnesses, ∀ b ∈ w.tokens, ∀ b' ∈ w.tokens, b.str = b'.str → b = b' := by decide +kernel
  have h6 : ∀ w ∈ starWitnesses.tail.dropLast, w.tokens.length ≠ 1 := by decide +kernel
  rcases C118_graph_partial wordKind starWitnesses (by decide +kernel) h1 h2 h3 h4 (by
    intro w hw a b b' hb hb' e1 e2
    unfold wordKind at e1 e2
    refine h5 w hw b hb b' hb' ?_
    split at e1
    · split at e2
      · rename_i x1 x2
        rw [← x1, ← x2]
      · cases e2
    · cases e1) with h | ⟨_, w, hw, h⟩
  · exact h
  · exact absurd h (h6 w hw)

/-- Its graph: the words on the vertices. -/
example : ((starCollate wordKind starWitnesses).map (fun g => g.nodes.map (fun p => p.2.tokens.map (fun q => (q.1, q.2.map Token.str))))) =
    .ok [[], [], [(S "A", [S "the"]), (S "B", [S "the"]), (S "D", [S "the"])], [(S "A", [S "black"]), (S "C", [S "black"]), (S "D", [S "black"])],
      [(S "A", [S "cat"]), (S "B", [S "cat"])], [(S "C", [S "dog"]), (S "D", [S "dog"])], [(S "C", [S "the"])]] := by
  decide +kernel

end CollateX
