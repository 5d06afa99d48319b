import Verif.Proofs.AStarSame
/-
C118, for witnesses that match token by token.
-/

namespace CollateX
open Spec

/-- C118 for witnesses of the same length whose tokens match those of the first one place by place, also if words are repeated and if they have
only one word: the collation does not fail, all witnesses are read along the same path, and the graph has no other vertices. -/
theorem C118_same (kind : Token → Token → MatchKind) (w : Witness) (ws : List Witness) (hne : w.tokens ≠ []) (hsg : ((w :: ws).map Witness.sigil).Nodup)
    (hs : ∀ x ∈ w :: ws, x.sigil ≠ []) (hnd : ∀ x ∈ w :: ws, x.tokens.Nodup)
    (hlen : ∀ x ∈ ws, x.tokens.length = w.tokens.length)
    (hsame : ∀ x ∈ ws, ∀ (i : Nat) a b, w.tokens[i]? = some a → x.tokens[i]? = some b → kind a b = .full) :
    ∃ g path, starCollate kind (w :: ws) = .ok g ∧ (∀ x ∈ w :: ws, Reads g x.sigil path x.tokens) ∧ ∀ v ∈ g.vertices, v ∈ path := by
  obtain ⟨p, J, p1, p2, p3⟩ := StarInv.first (kind := kind) (w := w) hne (hnd w (by simp))
  have hlenp : p.inner.length = w.tokens.length := by
    have := congrArg List.length p2
    simpa [WPath.inner] using this
  have K : SameInv ((merge VGraph.init w.sigil w.tokens []).1, (merge VGraph.init w.sigil w.tokens []).2, w.tokens) [p] w.tokens p.inner := by
    refine ⟨J.ginv, by simp, rfl, hlenp, ?_, fun q hq => by rw [List.mem_singleton.mp hq]⟩
    intro i a v ha hv
    -- the vertex in a place has the token in that place
    unfold WPath.inner at hv
    rw [List.getElem?_map] at hv
    obtain ⟨⟨v', l⟩, h1, h2⟩ := Option.map_eq_some_iff.mp hv
    simp only at h2
    subst h2
    have h3 : (p.segs.map Prod.snd)[i]? = some l := by rw [List.getElem?_map, h1]; rfl
    rw [p2, List.getElem?_map, ha] at h3
    injection h3 with h3
    subst h3
    have hin := J.ginv.segs_in p (by simp) _ (List.mem_of_getElem? h1)
    obtain ⟨t, ht⟩ := J.founder v' hin.1 hin.2.1 hin.2.2.1
    obtain ⟨q, hq, h4⟩ := J.on t v' ht
    rw [List.mem_singleton.mp hq] at h4
    have hpn : (p.segs.map Prod.fst).Nodup := by
      have := J.ginv.path_nodup (p := p) (by simp)
      unfold WPath.path WPath.inner at this
      exact (List.nodup_cons.mp this).2.sublist (List.sublist_append_left _ _)
    have := (dget_of_mem hpn h4).symm.trans (dget_of_mem hpn (List.mem_of_getElem? h1))
    injection this with this
    rw [← List.head_eq_of_cons_eq this]
    exact ht
  obtain ⟨s, qs, k1, k2, k3⟩ := starLoop_same (kind := kind) hne ws _ _ K (by simpa [p1] using hsg) (fun x hx => hnd x (by simp [hx]))
    (fun x hx => ⟨(hlen x hx).symm, hsame x hx⟩)
  have hall : PathsOf (p :: qs) (w :: ws) := List.Forall₂.cons ⟨p1, p2⟩ k3
  rw [List.singleton_append] at k2
  refine ⟨s.1, p.path, ?_, ?_, ?_⟩
  · rw [starCollate, k1]; rfl
  · intro x hx
    obtain ⟨q, hq, h⟩ := hall.reads k2.ginv hs hx
    have : q.path = p.path := by unfold WPath.path; rw [k2.inner q hq]
    rw [← this]; exact h
  · intro v hv
    by_cases h1 : v = startV
    · subst h1; simp [WPath.path]
    · by_cases h2 : v = endV
      · subst h2; simp [WPath.path]
      · obtain ⟨q, hq, h3⟩ := k2.ginv.cover v hv h1 h2
        rw [k2.inner q hq] at h3
        unfold WPath.path
        simp [h3]

/-- Three copies of a text with a repeated word. -/
example : ∃ g path, starCollate wordKind (indexed 0 [wordsWitness "A" ["a", "b", "a"], wordsWitness "B" ["a", "b", "a"],
      wordsWitness "C" ["a", "b", "a"]]) = .ok g ∧
    (∀ x ∈ indexed 0 [wordsWitness "A" ["a", "b", "a"], wordsWitness "B" ["a", "b", "a"], wordsWitness "C" ["a", "b", "a"]],
      Reads g x.sigil path x.tokens) ∧ ∀ v ∈ g.vertices, v ∈ path := by
  refine C118_same wordKind _ _ (by decide +kernel) (by decide +kernel) (by decide +kernel) (by decide +kernel) (by decide +kernel) ?_
  intro x hx i a b ha hb
  have h : ∀ x ∈ (indexed 0 [wordsWitness "A" ["a", "b", "a"], wordsWitness "B" ["a", "b", "a"], wordsWitness "C" ["a", "b", "a"]]).tail,
      x.tokens.map Token.str = [S "a", S "b", S "a"] := by decide +kernel
  have h0 : ((indexed 0 [wordsWitness "A" ["a", "b", "a"]]).flatMap Witness.tokens).map Token.str = [S "a", S "b", S "a"] := by decide +kernel
  have h1 := congrArg (fun l => l[i]?) (h x hx)
  have h2 := congrArg (fun l => l[i]?) h0
  simp only [List.getElem?_map, hb, Option.map_some] at h1
  rw [indexed, indexed, List.flatMap_cons, List.flatMap_nil, List.append_nil] at h2
  simp only [List.getElem?_map, ha, Option.map_some] at h2
  rw [← h1] at h2
  injection h2 with h2
  unfold wordKind
  rw [if_pos h2]

end CollateX
