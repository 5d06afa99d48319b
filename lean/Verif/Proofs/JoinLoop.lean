import Verif.Proofs.JoinStep
import Verif.Proofs.Topo
import Mathlib.Data.List.Basic
import Mathlib.Data.List.Nodup
import Mathlib.Tactic.Linarith
import Mathlib.Tactic.Ring
/-
The loop of `join`: it terminates, keeps every reading, and leaves nothing to join.
-/

namespace CollateX
open Spec

/-- The tokens of a reading. -/
def WPath.text (p : WPath) : List Token := p.segs.flatMap Prod.snd

/-- The witnesses on one vertex have the same strings there. -/
def Uniform (ps : List WPath) : Prop :=
  ∀ p ∈ ps, ∀ q ∈ ps, ∀ v ts us, (v, ts) ∈ p.segs → (v, us) ∈ q.segs → ts.map Token.str = us.map Token.str

/-- Nothing left to join. -/
def Maximal (g : VGraph) : Prop := ∀ v c, v ≠ startV → ¬ Joinable g v c

theorem length_le_one_of_nodup {A : Type} {l : List A} (hnd : l.Nodup) (h : ∀ a ∈ l, ∀ b ∈ l, a = b) : l.length ≤ 1 := by
  match l with
  | [] => simp
  | [a] => simp
  | a :: b :: l =>
    have := h a (by simp) b (by simp)
    simp [this] at hnd

theorem nodup_length_le {A : Type} [DecidableEq A] {l : List A} (hnd : l.Nodup) : ∀ {m : List A}, (∀ a ∈ l, a ∈ m) →
    l.length ≤ m.length := by
  induction l with
  | nil => simp
  | cons a l ih =>
    intro m h
    rw [List.nodup_cons] at hnd
    have ha := h a (by simp)
    have := ih hnd.2 (m := m.erase a) (fun b hb => by
      have hne : b ≠ a := by rintro rfl; exact hnd.1 hb
      rw [List.mem_erase_of_ne hne]
      exact h b (by simp [hb]))
    rw [List.length_erase_of_mem ha] at this
    have := List.length_pos_of_mem ha
    simp only [List.length_cons]
    omega

theorem nodup_edges {g : VGraph} (hnd : g.pairs.Nodup) : g.edges.Nodup := by
  unfold VGraph.pairs at hnd
  exact List.Nodup.of_map _ hnd

theorem joinable_iff {g : VGraph} (hnd : g.pairs.Nodup) {v c : VId} : Joinable g v c ↔
    (v, c) ∈ g.pairs ∧ (∀ b, (v, b) ∈ g.pairs → b = c) ∧ c ≠ endV ∧ (∀ a, (a, c) ∈ g.pairs → a = v) := by
  constructor
  · intro J
    exact ⟨J.edge, fun b h => J.succ h, J.ne_end, fun a h => J.pred h⟩
  · rintro ⟨h1, h2, h3, h4⟩
    have hen := nodup_edges hnd
    obtain ⟨l, hl⟩ := mem_pairs.mp h1
    have same : ∀ e ∈ g.edges, ∀ e' ∈ g.edges, e.src = e'.src → e.tgt = e'.tgt → e = e' := by
      intro e he e' he' hs ht
      exact List.inj_on_of_nodup_map hnd he he' (by simp [hs, ht])
    have ho : g.outEdges v = [⟨v, c, l⟩] := by
      have hm : (⟨v, c, l⟩ : Edge) ∈ g.outEdges v := mem_outEdges.mpr ⟨hl, rfl⟩
      have hle := length_le_one_of_nodup (l := g.outEdges v) (hen.filter _) (by
        intro a ha b hb
        obtain ⟨ha1, ha2⟩ := mem_outEdges.mp ha
        obtain ⟨hb1, hb2⟩ := mem_outEdges.mp hb
        have t1 := h2 a.tgt (by rw [← ha2]; exact mem_pairs_of_edge ha1)
        have t2 := h2 b.tgt (by rw [← hb2]; exact mem_pairs_of_edge hb1)
        exact same a ha1 b hb1 (by rw [ha2, hb2]) (by rw [t1, t2]))
      match hE : g.outEdges v with
      | [] => rw [hE] at hm; simp at hm
      | [e] => rw [hE] at hm; rw [List.mem_singleton.mp hm]
      | _ :: _ :: _ => rw [hE] at hle; simp at hle
    refine ⟨⟨_, ho, rfl⟩, h3, ?_⟩
    have hm : (⟨v, c, l⟩ : Edge) ∈ g.inEdges c := mem_inEdges.mpr ⟨hl, rfl⟩
    have hle := length_le_one_of_nodup (l := g.inEdges c) (hen.filter _) (by
        intro a ha b hb
        obtain ⟨ha1, ha2⟩ := mem_inEdges.mp ha
        obtain ⟨hb1, hb2⟩ := mem_inEdges.mp hb
        have t1 := h4 a.src (by rw [← ha2]; exact mem_pairs_of_edge ha1)
        have t2 := h4 b.src (by rw [← hb2]; exact mem_pairs_of_edge hb1)
        exact same a ha1 b hb1 (by rw [t1, t2]) (by rw [ha2, hb2]))
    have := List.length_pos_of_mem hm
    omega

/-- The invariant of the loop. -/
structure JInv (g : VGraph) (ps : List WPath) (processed queue : List VId) : Prop where
  ginv : GInv g ps
  maxi : ∀ u ∈ processed, ∀ c, ¬ Joinable g u c
  pred : ∀ u ∈ processed ++ queue, ∃ w ∈ startV :: processed, (w, u) ∈ g.pairs
  single : ∀ u, u ∉ processed → queue.head? ≠ some u → ∀ p ∈ ps, ∀ ts, (u, ts) ∈ p.segs → ∃ t, ts = [t]
  succ : ∀ w ∈ startV :: processed, ∀ u, (w, u) ∈ g.pairs → u ∈ processed ∨ u ∈ queue

section
variable {g : VGraph} {ps : List WPath} {processed queue : List VId}

theorem JInv.ne_start (I : JInv g ps processed queue) {u : VId} (h : u ∈ processed ++ queue) : u ≠ startV := by
  obtain ⟨w, _, hw⟩ := I.pred u h
  rintro rfl
  exact I.ginv.not_start_tgt hw

theorem JInv.join {v c : VId} {x : Vertex} (I : JInv g ps processed (v :: queue)) (J : Joinable g v c)
    (hg' : GInv (joined g c v x) (ps.map (contractPath v c))) :
    JInv (joined g c v x) (ps.map (contractPath v c)) processed (v :: queue) := by
  have hvc := J.ne I.ginv
  have hvs : v ≠ startV := I.ne_start (by simp)
  have hvp : v ∉ processed := fun h => I.maxi v h c J
  have hcq : c ∉ processed ++ v :: queue := by
    intro h
    obtain ⟨w, hw, hp⟩ := I.pred c h
    have := J.pred hp
    subst this
    rcases List.mem_cons.mp hw with h | h
    · exact hvs h
    · exact hvp h
  have hcs := J.c_ne_start I.ginv
  have hold : ∀ w ∈ startV :: processed, w ≠ v ∧ w ≠ c := by
    intro w hw
    rcases List.mem_cons.mp hw with rfl | h
    · exact ⟨Ne.symm hvs, Ne.symm hcs⟩
    · exact ⟨fun e => hvp (e ▸ h), fun e => hcq (by subst e; simp [h])⟩
  constructor
  · exact hg'
  · intro u hu d Jd
    obtain ⟨huv, huc⟩ := hold u (by simp [hu])
    rw [joinable_iff hg'.edges_nd] at Jd
    obtain ⟨h1, h2, h3, h4⟩ := Jd
    have h1' : (u, d) ∈ g.pairs := by
      rcases (mem_pairs_joined hvc).mp h1 with ⟨h, _⟩ | ⟨h, _⟩
      · exact h
      · exact absurd h huv
    refine I.maxi u hu d ((joinable_iff I.ginv.edges_nd).mpr ⟨h1', ?_, h3, ?_⟩)
    · intro b hb
      exact h2 b ((mem_pairs_joined hvc).mpr (Or.inl ⟨hb, huv, huc⟩))
    · intro a ha
      by_cases hav : a = v
      · subst hav
        have hd := J.succ ha
        subst hd
        exact absurd (J.pred h1') huv
      · by_cases hac : a = c
        · subst hac
          exact absurd (h4 v ((mem_pairs_joined hvc).mpr (Or.inr ⟨rfl, ha⟩))).symm huv
        · exact h4 a ((mem_pairs_joined hvc).mpr (Or.inl ⟨ha, hav, hac⟩))
  · intro u hu
    obtain ⟨w, hw, hp⟩ := I.pred u hu
    exact ⟨w, hw, (mem_pairs_joined hvc).mpr (Or.inl ⟨hp, hold w hw⟩)⟩
  · intro u hu hh p hp ts hts
    obtain ⟨q, hq, rfl⟩ := List.mem_map.mp hp
    simp only [List.head?_cons, ne_eq, Option.some.injEq] at hh
    rcases (J.mem_segs I.ginv hvs hq).mp hts with ⟨_, _, h3⟩ | ⟨h, _⟩
    · exact I.single u hu (by simpa using hh) q hq ts h3
    · exact absurd h.symm hh
  · intro w hw u hp
    obtain ⟨h1, h2⟩ := hold w hw
    rcases (mem_pairs_joined hvc).mp hp with ⟨h, _⟩ | ⟨h, _⟩
    · exact I.succ w hw u h
    · exact absurd h h1

theorem JInv.finish {v : VId} (I : JInv g ps processed (v :: queue)) (hJ : ∀ c, ¬ Joinable g v c) :
    JInv g ps (v :: processed)
      (((((g.outEdges v).map Edge.tgt).filter (fun m => m ∉ v :: processed)).reverse) ++ queue) := by
  constructor
  · exact I.ginv
  · intro u hu
    rcases List.mem_cons.mp hu with rfl | h
    · exact hJ
    · exact I.maxi u h
  · intro u hu
    rw [List.cons_append, List.mem_cons, List.mem_append, List.mem_append, List.mem_reverse, List.mem_filter] at hu
    have old : u ∈ processed ++ v :: queue → ∃ w ∈ startV :: v :: processed, (w, u) ∈ g.pairs := by
      intro h
      obtain ⟨w, hw, hp⟩ := I.pred u h
      refine ⟨w, ?_, hp⟩
      simp only [List.mem_cons] at hw ⊢
      rcases hw with h | h
      · exact Or.inl h
      · exact Or.inr (Or.inr h)
    rcases hu with rfl | h | ⟨h, _⟩ | h
    · exact old (by simp)
    · exact old (by simp [h])
    · obtain ⟨e, he, rfl⟩ := List.mem_map.mp h
      obtain ⟨h1, h2⟩ := mem_outEdges.mp he
      exact ⟨v, by simp, by rw [← h2]; exact mem_pairs_of_edge h1⟩
    · exact old (by simp [h])
  · intro u hu _
    simp only [List.mem_cons, not_or] at hu
    exact I.single u hu.2 (by simpa using Ne.symm hu.1)
  · intro w hw u hp
    by_cases hwv : w = v
    · subst hwv
      by_cases hu : u ∈ w :: processed
      · exact Or.inl hu
      · right
        rw [List.mem_append, List.mem_reverse, List.mem_filter]
        left
        obtain ⟨l, hl⟩ := mem_pairs.mp hp
        exact ⟨List.mem_map.mpr ⟨_, mem_outEdges.mpr ⟨hl, rfl⟩, rfl⟩, by simpa using hu⟩
    · have : w ∈ startV :: processed := by
        simp only [List.mem_cons] at hw ⊢
        rcases hw with h | h | h
        · exact Or.inl h
        · exact absurd h hwv
        · exact Or.inr h
      rcases I.succ w this u hp with h | h
      · exact Or.inl (List.mem_cons_of_mem _ h)
      · rcases List.mem_cons.mp h with rfl | h
        · exact Or.inl (by simp)
        · exact Or.inr (List.mem_append_right _ h)

theorem JInv.done (I : JInv g ps processed []) : Maximal g := by
  intro v c hvs J
  have hve := J.v_ne_end I.ginv
  obtain ⟨hvm, _⟩ := I.ginv.wf.ends _ J.edge
  obtain ⟨p, hp, hv⟩ := I.ginv.cover v hvm hvs hve
  have hall : ∀ (i : Nat) (u : VId), p.path[i]? = some u → u ∈ startV :: processed := by
    intro i
    induction i with
    | zero => intro u h; simp [WPath.path] at h; simp [h]
    | succ i ih =>
      intro u h
      have hlt : i < p.path.length := by
        have := List.getElem?_eq_some_iff.mp h
        obtain ⟨h, _⟩ := this
        omega
      obtain ⟨w, hw⟩ : ∃ w, p.path[i]? = some w := ⟨_, List.getElem?_eq_getElem hlt⟩
      have hc : (w, u) ∈ g.pairs := (I.ginv.edges_iff w u).mpr ⟨p, hp, consec_iff_getElem.mpr ⟨i, hw, h⟩⟩
      rcases I.succ w (ih w hw) u hc with h | h
      · exact List.mem_cons_of_mem _ h
      · simp at h
  have : v ∈ p.path := by unfold WPath.path; simp [hv]
  obtain ⟨i, hi⟩ := List.mem_iff_getElem?.mp this
  rcases List.mem_cons.mp (hall i v hi) with h | h
  · exact hvs h
  · exact I.maxi v h c J

end

/-- What a join keeps: the sigla and the text of every reading. -/
def readings (ps : List WPath) : List (Str × List Token) := ps.map (fun p => (p.sigil, p.text))

theorem readings_contract (v c : VId) (ps : List WPath) : readings (ps.map (contractPath v c)) = readings ps := by
  unfold readings
  rw [List.map_map]
  apply List.map_congr_left
  intro p _
  simp only [Function.comp, contractPath, WPath.text, contract_text]

theorem Uniform.contract {g : VGraph} {ps : List WPath} {v c : VId} (hU : Uniform ps) (hg : GInv g ps)
    (J : Joinable g v c) (hvs : v ≠ startV) : Uniform (ps.map (contractPath v c)) := by
  intro p hp q hq u ts us h1 h2
  obtain ⟨p, hp', rfl⟩ := List.mem_map.mp hp
  obtain ⟨q, hq', rfl⟩ := List.mem_map.mp hq
  clear hp hq
  rename' hp' => hp, hq' => hq
  rcases (J.mem_segs hg hvs hp).mp h1 with ⟨a1, a2, a3⟩ | ⟨rfl, t1, t2, a1, a2, rfl⟩
  · rcases (J.mem_segs hg hvs hq).mp h2 with ⟨_, _, b3⟩ | ⟨h, _⟩
    · exact hU p hp q hq u ts us a3 b3
    · exact absurd h a1
  · rcases (J.mem_segs hg hvs hq).mp h2 with ⟨h, _⟩ | ⟨_, u1, u2, b1, b2, rfl⟩
    · exact absurd rfl h
    · rw [List.map_append, List.map_append, hU p hp q hq _ _ _ a1 b1, hU p hp q hq _ _ _ a2 b2]

/-! ### Termination -/

theorem sum_le_mul {l : List Nat} {b : Nat} (h : ∀ x ∈ l, x ≤ b) : l.sum ≤ l.length * b := by
  induction l with
  | nil => simp
  | cons a l ih =>
    have h1 := h a (by simp)
    have h2 := ih (fun x hx => h x (by simp [hx]))
    rw [List.sum_cons, List.length_cons, Nat.succ_mul]
    omega

/-- Successors weigh less than the vertex. -/
theorem succ_weight {B N : Nat} {h : VId → Nat} {v : VId} {l : List VId} (hlen : l.length < B) (hN : ∀ u ∈ l, h u ≤ N)
    (hlt : ∀ u ∈ l, h v < h u) : (l.map (fun u => B ^ (N - h u))).sum < B ^ (N - h v) := by
  have hB : 0 < B := by omega
  cases l with
  | nil => simpa using Nat.pow_pos hB
  | cons a l =>
    have h1 := hN a (by simp)
    have h2 := hlt a (by simp)
    obtain ⟨k, hk⟩ : ∃ k, N - h v = k + 1 := ⟨N - h v - 1, by omega⟩
    have hle : ∀ x ∈ ((a :: l).map (fun u => B ^ (N - h u))), x ≤ B ^ k := by
      intro x hx
      obtain ⟨u, hu, rfl⟩ := List.mem_map.mp hx
      apply Nat.pow_le_pow_right hB
      have := hlt u hu
      omega
    have h3 := sum_le_mul hle
    rw [List.length_map] at h3
    rw [hk, Nat.pow_succ, Nat.mul_comm]
    have h4 : (a :: l).length * B ^ k < B * B ^ k := Nat.mul_lt_mul_of_pos_right hlen (Nat.pow_pos hB)
    omega

/-- An extra property that every join step keeps. -/
def StepInv (cc : CharClass) (Q : VGraph → List WPath → Prop) : Prop :=
  ∀ g ps v c x, GInv g ps → Joinable g v c → v ≠ startV → joinVertices cc g c v = .ok (g.setVertex v x) →
    (∀ p ∈ ps, ∀ ts, (c, ts) ∈ p.segs → ∃ t, ts = [t]) →
    Q g ps → Q (joined g c v x) (ps.map (contractPath v c))

theorem joinLoop_ok (cc : CharClass) {Q : VGraph → List WPath → Prop} (hQ : StepInv cc Q) (B N : Nat) (h : VId → Nat) :
    ∀ (fuel : Nat) (g : VGraph) (ps : List WPath) (processed queue : List VId),
    JInv g ps processed queue → Q g ps → Uniform ps → (∀ p ∈ g.pairs, h p.1 < h p.2) → (∀ u ∈ g.vertices, h u ≤ N) →
    g.nodes.length < B → (queue.map (fun u => B ^ (N - h u))).sum + g.nodes.length ≤ fuel →
    ∃ g' ps', joinLoop cc fuel g processed queue = .ok g' ∧ GInv g' ps' ∧ readings ps' = readings ps ∧ Uniform ps' ∧
      Maximal g' ∧ Q g' ps' := by
  intro fuel
  induction fuel with
  | zero =>
    intro g ps processed queue I hq hU _ _ _ hf
    cases queue with
    | nil => exact ⟨g, ps, rfl, I.ginv, rfl, hU, I.done, hq⟩
    | cons v queue =>
      have := List.length_pos_of_mem (List.mem_map.mp I.ginv.start_mem).choose_spec.1
      omega
  | succ fuel ih =>
    intro g ps processed queue I hq hU hh hN hB hf
    cases queue with
    | nil => exact ⟨g, ps, rfl, I.ginv, rfl, hU, I.done, hq⟩
    | cons v queue =>
      have hvs : v ≠ startV := I.ne_start (by simp)
      by_cases hJ : ∃ c, Joinable g v c
      · obtain ⟨c, J⟩ := hJ
        have hvc := J.ne I.ginv
        have hvp : v ∉ processed := fun h => I.maxi v h c J
        have hcp : c ∉ processed := by
          intro hc
          obtain ⟨w, hw, hp⟩ := I.pred c (by simp [hc])
          have := J.pred hp
          subst this
          rcases List.mem_cons.mp hw with h | h
          · exact hvs h
          · exact hvp h
        have hsingle : ∀ p ∈ ps, ∀ ts, (c, ts) ∈ p.segs → ∃ t, ts = [t] :=
          I.single c hcp (by simpa using hvc)
        obtain ⟨x, hx, hg'⟩ := I.ginv.join_step cc J hvs hsingle
        obtain ⟨e, he, hec⟩ := J.out
        obtain ⟨hvm, hcm⟩ := I.ginv.wf.ends _ J.edge
        have hlen : (joined g c v x).nodes.length + 1 ≤ g.nodes.length := by
          obtain ⟨q, hq, hqc⟩ := List.mem_map.mp hcm
          simp only [joined, List.length_map]
          have := List.length_filter_lt_length_iff_exists (p := fun p : VId × Vertex => decide (p.1 ≠ c)) (l := g.nodes)
          have h2 := this.mpr ⟨q, hq, by simpa using hqc⟩
          omega
        obtain ⟨g', ps', h1, h2, h3, h4, h5, h6⟩ := ih (joined g c v x) (ps.map (contractPath v c)) processed (v :: queue)
          (I.join J hg') (hQ g ps v c x I.ginv J hvs hx hsingle hq) (hU.contract I.ginv J hvs)
          (by
            rintro ⟨a, b⟩ hp
            rcases (mem_pairs_joined hvc).mp hp with ⟨h5, _⟩ | ⟨rfl, h5⟩
            · exact hh _ h5
            · have g1 := hh _ J.edge
              have g2 := hh _ h5
              simp only at g1 g2 ⊢
              omega)
          (fun u hu => hN u (mem_vertices_joined.mp hu).1) (by omega) (by omega)
        refine ⟨g', ps', ?_, h2, by rw [h3, readings_contract], h4, h5, h6⟩
        rw [joinLoop]
        simp only [he, hec]
        rw [if_pos ⟨J.ne_end, J.inn⟩, hx, bind_ok]
        have := join_step_eq hvc he hec J.inn (fun a ha => I.ginv.ne_of_pair (mem_pairs_of_edge ha)) I.ginv.edges_nd x
        simp only at this
        simp only [this]
        exact h1
      · have hJ' : ∀ c, ¬ Joinable g v c := fun c hc => hJ ⟨c, hc⟩
        have I' := I.finish hJ'
        have hw := succ_weight (B := B) (N := N) (h := h) (v := v)
          (l := (((g.outEdges v).map Edge.tgt).filter (fun m => m ∉ v :: processed)).reverse)
          (by
            rw [List.length_reverse]
            have h1 : ((g.outEdges v).map Edge.tgt).length ≤ g.vertices.length := by
              apply nodup_length_le
              · have hsub : ((g.outEdges v).map (fun a : Edge => (a.src, a.tgt))).Nodup :=
                  I.ginv.edges_nd.sublist (List.Sublist.map _ List.filter_sublist)
                rw [List.nodup_iff_pairwise_ne, List.pairwise_map] at hsub ⊢
                refine hsub.imp_of_mem ?_
                intro a b ha hb hne he
                apply hne
                rw [(mem_outEdges.mp ha).2, (mem_outEdges.mp hb).2, he]
              · intro u hu
                obtain ⟨e, he, rfl⟩ := List.mem_map.mp hu
                exact (I.ginv.wf.ends _ (mem_pairs_of_edge (mem_outEdges.mp he).1)).2
            have h2 := List.length_filter_le (fun m => decide (m ∉ v :: processed)) ((g.outEdges v).map Edge.tgt)
            have h3 : g.vertices.length = g.nodes.length := List.length_map ..
            omega)
          (by
            intro u hu
            rw [List.mem_reverse, List.mem_filter] at hu
            obtain ⟨e, he, rfl⟩ := List.mem_map.mp hu.1
            exact hN _ (I.ginv.wf.ends _ (mem_pairs_of_edge (mem_outEdges.mp he).1)).2)
          (by
            intro u hu
            rw [List.mem_reverse, List.mem_filter] at hu
            obtain ⟨e, he, rfl⟩ := List.mem_map.mp hu.1
            obtain ⟨g1, g2⟩ := mem_outEdges.mp he
            have := hh _ (mem_pairs_of_edge g1)
            simpa [g2] using this)
        obtain ⟨g', ps', h1, h2⟩ := ih g ps (v :: processed) _ I' hq hU hh hN hB
          (by
            rw [List.map_append, List.sum_append]
            rw [List.map_cons, List.sum_cons] at hf
            omega)
        refine ⟨g', ps', ?_, h2⟩
        rw [joinLoop]
        rw [← h1]
        simp only
        split
        · rename_i e he
          rw [if_neg]
          rintro ⟨c1, c2⟩
          exact hJ' e.tgt ⟨⟨e, he, rfl⟩, c1, c2⟩
        · rfl

/-- A layering below the number of nodes. -/
theorem WF.bounded_layering {g : VGraph} (wf : WF g) :
    ∃ h : VId → Nat, (∀ p ∈ g.pairs, h p.1 < h p.2) ∧ ∀ u ∈ g.vertices, h u ≤ g.nodes.length := by
  obtain ⟨o, _, ho⟩ := kahn_spec g.vertices g.pairs wf.nd wf.ends wf.lay
  refine ⟨fun u => o.idxOf u, ?_, ?_⟩
  · intro p hp
    have hm : p.2 ∈ o := ho.perm.mem_iff.mpr (wf.ends p hp).2
    have hlt := List.idxOf_lt_length_of_mem hm
    have hsplit : o = o.take (o.idxOf p.2) ++ p.2 :: o.drop (o.idxOf p.2 + 1) := by
      conv_lhs => rw [← List.take_append_drop (o.idxOf p.2) o, List.drop_eq_getElem_cons hlt]
      rw [List.getElem_idxOf]
    have hin := ho.before p hp _ _ hsplit
    have h1 := List.idxOf_lt_length_of_mem hin
    have h2 : o.idxOf p.1 = (o.take (o.idxOf p.2)).idxOf p.1 := by
      conv_lhs => rw [← List.take_append_drop (o.idxOf p.2) o]
      exact List.idxOf_append_of_mem hin
    rw [List.length_take] at h1
    show o.idxOf p.1 < o.idxOf p.2
    omega
  · intro u hu
    have := ho.perm.length_eq
    have h3 : g.vertices.length = g.nodes.length := List.length_map ..
    have := List.idxOf_le_length (a := u) (l := o)
    show o.idxOf u ≤ _
    omega

/-- `join` on a graph whose readings have one token per vertex. -/
theorem join_ok (cc : CharClass) {Q : VGraph → List WPath → Prop} (hQ : StepInv cc Q) {g : VGraph} {ps : List WPath}
    (hg : GInv g ps) (hq : Q g ps) (hU : Uniform ps) (h1 : ∀ p ∈ ps, ∀ q ∈ p.segs, ∃ t, q.2 = [t]) :
    ∃ g' ps', join cc g = .ok g' ∧ GInv g' ps' ∧ readings ps' = readings ps ∧ Uniform ps' ∧ Maximal g' ∧ Q g' ps' := by
  obtain ⟨h, hh, hN⟩ := hg.wf.bounded_layering
  have hpos : 0 < g.nodes.length := by
    obtain ⟨q, hq, _⟩ := List.mem_map.mp hg.start_mem
    exact List.length_pos_of_mem hq
  have hsucc : ∀ u ∈ ((g.outEdges startV).map Edge.tgt).reverse, (startV, u) ∈ g.pairs := by
    intro u hu
    rw [List.mem_reverse] at hu
    obtain ⟨e, he, rfl⟩ := List.mem_map.mp hu
    obtain ⟨a, b⟩ := mem_outEdges.mp he
    rw [← b]; exact mem_pairs_of_edge a
  have hlen : ((g.outEdges startV).map Edge.tgt).reverse.length ≤ g.nodes.length := by
    have h3 : g.vertices.length = g.nodes.length := List.length_map ..
    rw [← h3, List.length_reverse]
    apply nodup_length_le
    · have hsub : ((g.outEdges startV).map (fun a : Edge => (a.src, a.tgt))).Nodup :=
        hg.edges_nd.sublist (List.Sublist.map _ List.filter_sublist)
      rw [List.nodup_iff_pairwise_ne, List.pairwise_map] at hsub ⊢
      refine hsub.imp_of_mem ?_
      intro a b ha hb hne he
      apply hne
      rw [(mem_outEdges.mp ha).2, (mem_outEdges.mp hb).2, he]
    · intro u hu
      exact (hg.wf.ends _ (hsucc u (List.mem_reverse.mpr hu))).2
  apply joinLoop_ok cc hQ (g.nodes.length + 1) g.nodes.length h
  · constructor
    · exact hg
    · intro u hu; simp at hu
    · intro u hu
      exact ⟨startV, by simp, hsucc u (by simpa using hu)⟩
    · intro u _ _ p hp ts hts
      exact h1 p hp _ hts
    · intro w hw u hp
      simp only [List.mem_cons, List.not_mem_nil, or_false] at hw
      subst hw
      right
      obtain ⟨l, hl⟩ := mem_pairs.mp hp
      rw [List.mem_reverse]
      exact List.mem_map.mpr ⟨_, mem_outEdges.mpr ⟨hl, rfl⟩, rfl⟩
  · exact hq
  · exact hU
  · exact hh
  · exact hN
  · omega
  · unfold joinFuel
    have hle : ∀ x ∈ (((g.outEdges startV).map Edge.tgt).reverse.map
        (fun u => (g.nodes.length + 1) ^ (g.nodes.length - h u))), x ≤ (g.nodes.length + 2) ^ g.nodes.length := by
      intro x hx
      obtain ⟨u, _, rfl⟩ := List.mem_map.mp hx
      calc (g.nodes.length + 1) ^ (g.nodes.length - h u) ≤ (g.nodes.length + 1) ^ g.nodes.length :=
            Nat.pow_le_pow_right (by omega) (by omega)
        _ ≤ _ := Nat.pow_le_pow_left (by omega) _
    have hs := sum_le_mul hle
    rw [List.length_map] at hs
    have h5 : ((g.outEdges startV).map Edge.tgt).reverse.length * (g.nodes.length + 2) ^ g.nodes.length ≤
        g.nodes.length * (g.nodes.length + 2) ^ g.nodes.length := Nat.mul_le_mul_right _ hlen
    have h6 : 1 ≤ (g.nodes.length + 2) ^ g.nodes.length := Nat.pow_pos (by omega)
    have h7 : (g.nodes.length + 2) ^ (g.nodes.length + 2) =
        (g.nodes.length + 2) * ((g.nodes.length + 2) * (g.nodes.length + 2) ^ g.nodes.length) := by
      rw [Nat.pow_succ, Nat.pow_succ]; ring
    rw [h7]
    generalize (g.nodes.length + 2) ^ g.nodes.length = X at *
    generalize (List.map (fun u => (g.nodes.length + 1) ^ (g.nodes.length - h u)) _).sum = S at *
    generalize g.nodes.length = n at *
    nlinarith

end CollateX
