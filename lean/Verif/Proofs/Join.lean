import Verif.Proofs.GInv
/-
`join`: contracting a vertex with its only successor. One step.
-/

namespace CollateX
open Spec

/-- Replace `(v, ts), (c, us)` by `(v, ts ++ us)`. -/
def contract (v c : VId) : List (VId × List Token) → List (VId × List Token)
  | [] => []
  | [q] => [q]
  | q :: r :: rest => if q.1 = v ∧ r.1 = c then (v, q.2 ++ r.2) :: rest else q :: contract v c (r :: rest)

theorem contract_id (v c : VId) : ∀ l : List (VId × List Token), v ∉ l.map Prod.fst → contract v c l = l
  | [], _ => rfl
  | [q], _ => rfl
  | q :: r :: rest, h => by
    simp only [List.map_cons, List.mem_cons, not_or] at h
    rw [contract, if_neg (fun hc => h.1 hc.1.symm), contract_id v c (r :: rest) (by simp [h.2])]

theorem contract_split (v c : VId) (ts us : List Token) (B : List (VId × List Token)) : ∀ A : List (VId × List Token),
    v ∉ A.map Prod.fst → contract v c (A ++ (v, ts) :: (c, us) :: B) = A ++ (v, ts ++ us) :: B
  | [], _ => by simp [contract]
  | [q], h => by
    simp only [List.map_cons, List.map_nil, List.mem_singleton] at h
    simp [contract, Ne.symm h]
  | q :: r :: A, h => by
    simp only [List.map_cons, List.mem_cons, not_or] at h
    have := contract_split v c ts us B (r :: A) (by simp [h.2])
    simp only [List.cons_append] at this ⊢
    rw [contract, if_neg (fun hc => h.1 hc.1.symm), this]

theorem consec_split {X Z : List VId} {y a b : VId} :
    Consec (X ++ y :: Z) a b ↔ Consec (X ++ [y]) a b ∨ Consec (y :: Z) a b := by
  induction X with
  | nil => simp [consec_single]
  | cons x X ih =>
    rw [List.cons_append, consec_cons, ih, List.cons_append, consec_cons (a := x) (l := X ++ [y]), or_assoc]
    apply or_congr _ Iff.rfl
    cases X <;> simp

/-- Consecutive elements after contraction. -/
theorem consec_contract {P Q : List VId} {v c a b : VId} (hvc : v ≠ c) (hvP : v ∉ P) (hcP : c ∉ P) (hvQ : v ∉ Q) (hcQ : c ∉ Q) :
    Consec (P ++ v :: Q) a b ↔ (Consec (P ++ v :: c :: Q) a b ∧ a ≠ v ∧ a ≠ c) ∨ (a = v ∧ Consec (P ++ v :: c :: Q) c b) := by
  have hP : ∀ {a b}, Consec (P ++ [v]) a b → a ∈ P := by
    intro a b h
    rcases consec_append_single.mp h with h | ⟨h, _⟩
    · exact h.mem_left
    · exact List.mem_of_getLast? h
  constructor
  · intro h0
    rcases consec_split.mp h0 with h | h
    · left
      refine ⟨consec_split.mpr (Or.inl h), ?_, ?_⟩
      · rintro rfl; exact hvP (hP h)
      · rintro rfl; exact hcP (hP h)
    · rcases consec_cons.mp h with ⟨h1, h2⟩ | h2
      · right
        exact ⟨h1.symm, consec_split.mpr (Or.inr (consec_cons.mpr (Or.inr (consec_cons.mpr (Or.inl ⟨rfl, h2⟩)))))⟩
      · left
        refine ⟨consec_split.mpr (Or.inr (consec_cons.mpr (Or.inr (consec_cons.mpr (Or.inr h2))))), ?_, ?_⟩
        · rintro rfl; exact hvQ h2.mem_left
        · rintro rfl; exact hcQ h2.mem_left
  · rintro (⟨h0, h1, h2⟩ | ⟨rfl, h0⟩)
    · rcases consec_split.mp h0 with h | h
      · exact consec_split.mpr (Or.inl h)
      · rcases consec_cons.mp h with ⟨h3, _⟩ | h3
        · exact absurd h3.symm h1
        · rcases consec_cons.mp h3 with ⟨h4, _⟩ | h4
          · exact absurd h4.symm h2
          · exact consec_split.mpr (Or.inr (consec_cons.mpr (Or.inr h4)))
    · rcases consec_split.mp h0 with h | h
      · exact absurd (hP h) hcP
      · rcases consec_cons.mp h with ⟨h3, _⟩ | h3
        · exact absurd h3 hvc
        · rcases consec_cons.mp h3 with ⟨_, h4⟩ | h4
          · exact consec_split.mpr (Or.inr (consec_cons.mpr (Or.inl ⟨rfl, h4⟩)))
          · exact absurd h4.mem_left hcQ

/-! ### The tokens -/

theorem dget_addToken (x : Vertex) (s : Str) (t : Token) (k : Str) :
    dget (x.addToken s t).tokens k = if s = k then some ((dget x.tokens s).getD [] ++ [t]) else dget x.tokens k := by
  unfold Vertex.addToken
  split <;> rename_i h <;> simp only [h, dget_dset] <;> rfl

theorem nodup_addToken {x : Vertex} (h : (x.tokens.map Prod.fst).Nodup) (s : Str) (t : Token) :
    ((x.addToken s t).tokens.map Prod.fst).Nodup := by
  unfold Vertex.addToken
  split <;> exact nodup_keys_dset h _ _

theorem joinTokens_ok (d : Dict Str (List Token)) : ∀ x : Vertex, (x.tokens.map Prod.fst).Nodup → (d.map Prod.fst).Nodup →
    (∀ s ts, (s, ts) ∈ d → ts ≠ []) →
    ∃ x', joinTokens x d = .ok x' ∧ x'.label = x.label ∧ (x'.tokens.map Prod.fst).Nodup ∧
      ∀ k, dget x'.tokens k = match dget d k with
        | some (t :: _) => some ((dget x.tokens k).getD [] ++ [t])
        | _ => dget x.tokens k := by
  induction d with
  | nil => intro x hx _ _; exact ⟨x, rfl, rfl, hx, fun k => rfl⟩
  | cons q d ih =>
    obtain ⟨s, ts⟩ := q
    intro x hx hd hne
    simp only [List.map_cons, List.nodup_cons] at hd
    cases ts with
    | nil => exact absurd rfl (hne s [] (by simp))
    | cons t ts =>
      obtain ⟨x', h1, h2, h3, h4⟩ := ih (x.addToken s t) (nodup_addToken hx s t) hd.2
        (fun s' ts' h => hne s' ts' (by simp [h]))
      refine ⟨x', h1, ?_, h3, ?_⟩
      · rw [h2]; unfold Vertex.addToken; split <;> rfl
      · intro k
        rw [h4 k, dget_cons]
        by_cases hk : s = k
        · subst hk
          rw [dget_eq_none_iff.mpr hd.1, if_pos rfl]
          simp only
          rw [dget_addToken, if_pos rfl]
        · rw [if_neg hk]
          simp only [dget_addToken, if_neg hk]

/-! ### The edges -/

theorem moveEdges_eq (c v : VId) (hvc : v ≠ c) (es : List Edge) : ∀ g : VGraph,
    (es.map Edge.tgt).Nodup → (∀ e ∈ es, e.src = c ∧ e.tgt ≠ c) → g.outEdges c = es →
    (∀ e ∈ es, ∀ e' ∈ g.edges, e'.src = v → e'.tgt ≠ e.tgt) →
    (moveEdges g c v es).nodes = g.nodes ∧ (moveEdges g c v es).near = g.near ∧ (moveEdges g c v es).next = g.next ∧
    (moveEdges g c v es).edges = g.edges.filter (fun e => e.src ≠ c) ++ es.map (fun e => ⟨v, e.tgt, e.label⟩) := by
  induction es with
  | nil =>
    intro g _ _ ho _
    refine ⟨rfl, rfl, rfl, ?_⟩
    simp only [moveEdges, List.map_nil, List.append_nil]
    rw [List.filter_eq_self.mpr]
    intro e he
    simp only [ne_eq, decide_eq_true_eq]
    intro hs
    have : e ∈ g.outEdges c := mem_outEdges.mpr ⟨he, hs⟩
    rw [ho] at this
    simp at this
  | cons e es ih =>
    intro g hnd hsrc ho hno
    simp only [List.map_cons, List.nodup_cons] at hnd
    have hrm : ∀ e' ∈ (g.removeEdge c e.tgt).edges, ¬ (e'.src = v ∧ e'.tgt = e.tgt) := by
      rintro e' he' ⟨h1, h2⟩
      have : e' ∈ g.edges := (List.mem_filter.mp he').1
      exact hno e (by simp) e' this h1 h2
    have hconn : ((g.removeEdge c e.tgt).connect v e.tgt e.label) =
        { (g.removeEdge c e.tgt) with edges := (g.removeEdge c e.tgt).edges ++ [⟨v, e.tgt, e.label⟩] } := by
      unfold VGraph.connect
      rw [if_neg]
      unfold VGraph.hasEdge
      rw [List.any_eq_true]
      rintro ⟨e', he', h⟩
      exact hrm e' he' (by simpa using h)
    have hrmout : (g.removeEdge c e.tgt).outEdges c = es := by
      have h1 : (g.removeEdge c e.tgt).outEdges c = (g.outEdges c).filter (fun e' => ¬ (e'.src = c ∧ e'.tgt = e.tgt)) := by
        simp only [VGraph.outEdges, VGraph.removeEdge, List.filter_filter]
        apply List.filter_congr
        intro a _
        simp [Bool.and_comm]
      rw [h1, ho, List.filter_cons_of_neg, List.filter_eq_self.mpr]
      · intro a ha
        simp only [decide_eq_true_eq]
        rintro ⟨_, h2⟩
        exact hnd.1 (List.mem_map.mpr ⟨a, ha, h2⟩)
      · simp [(hsrc e (by simp)).1]
    obtain ⟨h1, h2, h3, h4⟩ := ih ((g.removeEdge c e.tgt).connect v e.tgt e.label) hnd.2
      (fun a ha => hsrc a (by simp [ha]))
      (by
        rw [hconn]
        show List.filter _ _ = _
        rw [List.filter_append]
        have : List.filter (fun e' : Edge => decide (e'.src = c)) [⟨v, e.tgt, e.label⟩] = [] := by simp [hvc]
        rw [this, List.append_nil]
        exact hrmout)
      (by
        rw [hconn]
        intro a ha e' he' hs
        simp only [List.mem_append, List.mem_singleton] at he'
        rcases he' with he' | rfl
        · exact hno a (by simp [ha]) e' (List.mem_filter.mp he').1 hs
        · simp only
          intro he
          exact hnd.1 (List.mem_map.mpr ⟨a, ha, he.symm⟩))
    rw [hconn] at h1 h2 h3 h4
    refine ⟨?_, ?_, ?_, ?_⟩
    · rw [moveEdges, hconn, h1]; rfl
    · rw [moveEdges, hconn, h2]; rfl
    · rw [moveEdges, hconn, h3]; rfl
    · rw [moveEdges, hconn, h4]
      simp only [VGraph.removeEdge, List.filter_append, List.map_cons, List.append_assoc]
      have e1 : List.filter (fun e' : Edge => decide (e'.src ≠ c)) [⟨v, e.tgt, e.label⟩] = [⟨v, e.tgt, e.label⟩] := by
        simp [hvc]
      rw [e1, List.filter_filter]
      congr 1
      apply List.filter_congr
      intro a _
      by_cases hac : a.src = c <;> simp [hac]

/-- The graph after one join. -/
def joined (g : VGraph) (c v : VId) (x : Vertex) : VGraph :=
  { nodes := (g.nodes.filter (fun p => p.1 ≠ c)).map (fun p => if p.1 = v then (p.1, x) else p)
    edges := g.edges.filter (fun e => e.src ≠ v ∧ e.src ≠ c) ++ (g.outEdges c).map (fun e => ⟨v, e.tgt, e.label⟩)
    near := g.near
    next := g.next }

/-- The body of the loop in terms of `joined`. -/
theorem join_step_eq {g : VGraph} {v c : VId} {e : Edge} (hvc : v ≠ c) (hout : g.outEdges v = [e]) (hec : e.tgt = c)
    (hin : (g.inEdges c).length = 1) (hloop : ∀ a ∈ g.edges, a.src ≠ a.tgt) (hnd : g.pairs.Nodup) (x : Vertex) :
    let g1 := g.setVertex v x
    let g2 := moveEdges g1 c v (g1.outEdges c)
    (g2.removeEdge v c).removeNode c = joined g c v x := by
  intro g1 g2
  have heg : e ∈ g.edges ∧ e.src = v := by
    have : e ∈ g.outEdges v := by rw [hout]; simp
    exact mem_outEdges.mp this
  -- the only edge into c is e
  have hinc : ∀ a ∈ g.edges, a.tgt = c → a = e := by
    intro a ha hac
    obtain ⟨b, hb⟩ := List.length_eq_one_iff.mp hin
    have h1 : a ∈ g.inEdges c := mem_inEdges.mpr ⟨ha, hac⟩
    have h2 : e ∈ g.inEdges c := mem_inEdges.mpr ⟨heg.1, hec⟩
    rw [hb] at h1 h2
    rw [List.mem_singleton.mp h1, List.mem_singleton.mp h2]
  have houtv : ∀ a ∈ g.edges, a.src = v → a = e := by
    intro a ha hav
    have : a ∈ g.outEdges v := mem_outEdges.mpr ⟨ha, hav⟩
    rw [hout] at this
    exact List.mem_singleton.mp this
  have hg1 : g1.outEdges c = g.outEdges c := rfl
  obtain ⟨h1, h2, h3, h4⟩ := moveEdges_eq c v hvc (g1.outEdges c) g1
    (by
      rw [hg1]
      have hsub : ((g.outEdges c).map (fun a : Edge => (a.src, a.tgt))).Nodup :=
        hnd.sublist (List.Sublist.map _ List.filter_sublist)
      rw [List.nodup_iff_pairwise_ne, List.pairwise_map] at hsub ⊢
      refine hsub.imp_of_mem ?_
      intro a b ha hb hne he
      apply hne
      rw [(mem_outEdges.mp ha).2, (mem_outEdges.mp hb).2, he])
    (by
      intro a ha
      obtain ⟨ha1, ha2⟩ := mem_outEdges.mp ha
      refine ⟨ha2, fun hc => hloop a ha1 (by rw [ha2, hc])⟩)
    rfl
    (by
      intro a ha b hb hbv hbt
      obtain ⟨ha1, ha2⟩ := mem_outEdges.mp ha
      rw [houtv b hb hbv, hec] at hbt
      exact hloop a ha1 (by rw [ha2, hbt]))
  show (g2.removeEdge v c).removeNode c = _
  have hg2 : g2 = ⟨g1.nodes, g.edges.filter (fun e => e.src ≠ c) ++ (g.outEdges c).map (fun e => ⟨v, e.tgt, e.label⟩), g.near, g.next⟩ := by
    show moveEdges g1 c v (g1.outEdges c) = _
    rw [← h1]
    conv_lhs => rw [show moveEdges g1 c v (g1.outEdges c) = ⟨_, _, _, _⟩ from rfl]
    congr 1
  rw [hg2]
  unfold VGraph.removeEdge VGraph.removeNode joined
  congr 1
  · show (g.setVertex v x).nodes.filter _ = _
    simp only [VGraph.setVertex, List.filter_map]
    congr 1
    apply List.filter_congr
    intro q _
    simp only [Function.comp]
    split <;> rfl
  · simp only [List.filter_append, List.filter_filter]
    congr 1
    · apply List.filter_congr
      intro a ha
      by_cases hav : a.src = v
      · have := houtv a ha hav
        simp [this, hec, heg.2]
      · by_cases hac : a.src = c
        · simp [hac]
        · have : a.tgt ≠ c := by
            intro h
            rw [hinc a ha h] at hav
            exact hav heg.2
          simp [hav, hac, this]
    · rw [List.filter_eq_self]
      intro a ha
      obtain ⟨b, hb, rfl⟩ := List.mem_map.mp ha
      obtain ⟨hb1, hb2⟩ := mem_outEdges.mp hb
      have : b.tgt ≠ c := fun h => hloop b hb1 (by rw [hb2, h])
      simp [hvc, this]

end CollateX
