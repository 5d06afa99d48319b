import Verif.Proofs.Near
/-
Near matching with at most two witnesses: ranks keep growing along every edge.
-/

namespace CollateX
open Spec

theorem pairwise_total {α : Type} {R : α → α → Prop} {l : List α} (h : l.Pairwise R) {a b : α} (ha : a ∈ l) (hb : b ∈ l) :
    a = b ∨ R a b ∨ R b a := by
  induction l with
  | nil => simp at ha
  | cons x l ih =>
    obtain ⟨h1, h2⟩ := List.pairwise_cons.mp h
    rcases List.mem_cons.mp ha with rfl | ha' <;> rcases List.mem_cons.mp hb with rfl | hb'
    · exact .inl rfl
    · exact .inr (.inl (h1 b hb'))
    · exact .inr (.inr (h1 a ha'))
    · exact ih h2 ha' hb'

/-- Directly after `s` on an increasing path comes `v`: everything above `s` is at least `v`. -/
theorem consec_next {l : List VId} {h : VId → Nat} (hl : l.Pairwise (fun a b => h a < h b)) {s v x : VId} (hc : Consec l s v)
    (hx : x ∈ l) (hlt : h s < h x) : x = v ∨ h v < h x := by
  obtain ⟨a, b, rfl⟩ := hc
  rw [List.append_assoc, List.pairwise_append] at hl
  obtain ⟨_, h2, h3⟩ := hl
  simp only [List.append_assoc, List.mem_append, List.cons_append, List.nil_append, List.mem_cons] at hx h2 h3
  rcases hx with hx | rfl | rfl | hx
  · have := h3 x hx s (by simp)
    omega
  · omega
  · exact .inl rfl
  · exact .inr ((List.pairwise_cons.mp (List.pairwise_cons.mp h2).2).1 x hx)

section
variable {ts : TopoFn} {g : VGraph} {rk : VId → Nat} {o : List VId} {m : Nat} {r : Ranking} {ps : List WPath}

theorem consec_mem {l : List VId} {u v : VId} (h : Consec l u v) : u ∈ l ∧ v ∈ l :=
  ⟨h.subset (by simp), h.subset (by simp)⟩

/-- At most two witnesses. -/
def AtMostTwo (ps : List WPath) : Prop := ∀ p ∈ ps, ∀ q ∈ ps, ∀ x ∈ ps, p = q ∨ q = x ∨ p = x

theorem atMostTwo_of_length (h : ps.length ≤ 2) : AtMostTwo ps := by
  match ps, h with
  | [], _ => intro p hp; simp at hp
  | [a], _ =>
    intro p hp q hq x hx
    simp only [List.mem_singleton] at hp hq hx
    subst hp; subst hq; exact .inl rfl
  | [a, b], _ =>
    intro p hp q hq x hx
    simp only [List.mem_cons, List.not_mem_nil, or_false] at hp hq hx
    rcases hp with rfl | rfl <;> rcases hq with rfl | rfl <;> rcases hx with rfl | rfl <;> simp

variable (B : NearBase ts g rk o m r) (G : GInv g ps) (hne : ps ≠ []) (h2 : AtMostTwo ps)

include G hne in
theorem on_path {v : VId} (hv : v ∈ g.vertices) : ∃ p ∈ ps, v ∈ p.path := by
  obtain ⟨p, hp⟩ := List.exists_mem_of_ne_nil _ hne
  by_cases h1 : v = startV
  · subst h1; exact ⟨p, hp, by simp [WPath.path]⟩
  · by_cases h3 : v = endV
    · subst h3; exact ⟨p, hp, by simp [WPath.path]⟩
    · obtain ⟨q, hq, h⟩ := G.cover v hv h1 h3
      exact ⟨q, hq, by simp [WPath.path, h]⟩

include B G in
theorem path_inc {p : WPath} (hp : p ∈ ps) : p.path.Pairwise (fun a b => rk a < rk b) :=
  G.path_increasing (fun q hq => B.rank.isRank.lt B.wf (u := q.1) (v := q.2) hq) hp

include B G hne in
/-- At the rank of a vertex that is not critical, the critical vertex is on another path. -/
theorem crit_beside {v : VId} (hv : v ∈ o) (hc : ¬ Crit g rk v) :
    ∃ c ∈ o, Crit g rk c ∧ rk c = rk v ∧ ∃ q ∈ ps, c ∈ q.path ∧ ∀ p ∈ ps, v ∈ p.path → p ≠ q := by
  obtain ⟨c, h1, h3, h4⟩ := B.level (rk v) (B.rank.st.lt v hv)
  obtain ⟨q, hq, h5⟩ := on_path G hne (B.mem.mp h1)
  refine ⟨c, h1, h3, h4, q, hq, h5, ?_⟩
  rintro p hp hvp rfl
  rcases pairwise_total (path_inc B G hp) hvp h5 with rfl | h | h
  · exact hc h3
  · omega
  · omega

include B G hne h2 in
/-- A vertex that is not critical is on one path only. -/
theorem one_path {v : VId} (hv : v ∈ o) (hc : ¬ Crit g rk v) {p q : WPath} (hp : p ∈ ps) (hq : q ∈ ps) (h3 : v ∈ p.path)
    (h4 : v ∈ q.path) : p = q := by
  obtain ⟨c, _, _, _, x, hx, _, h5⟩ := crit_beside B G hne hv hc
  rcases h2 p hp q hq x hx with h | h | h
  · exact h
  · exact absurd h (h5 q hq h4)
  · exact absurd h (h5 p hp h3)

include B G hne h2 in
/-- It has one successor only. -/
theorem one_out {s v v' : VId} (hs : s ∈ o) (hc : ¬ Crit g rk s) (h3 : (s, v) ∈ g.pairs) (h4 : (s, v') ∈ g.pairs) : v = v' := by
  obtain ⟨p, hp, a1⟩ := (G.edges_iff s v).mp h3
  obtain ⟨q, hq, a2⟩ := (G.edges_iff s v').mp h4
  have := one_path B G hne h2 hs hc hp hq (consec_mem a1).1 (consec_mem a2).1
  subst this
  have b1 := B.rank.isRank.lt B.wf h3
  have b2 := B.rank.isRank.lt B.wf h4
  rcases consec_next (path_inc B G hp) a1 (consec_mem a2).2 b2 with h | h
  · exact h.symm
  · rcases consec_next (path_inc B G hp) a2 (consec_mem a1).2 b1 with h' | h'
    · exact h'
    · omega

include B G hne h2 in
/-- The other vertices in the window of a move are critical. -/
theorem window_crit {f : VId → Nat} (hinc : ∀ p ∈ g.pairs, f p.1 < f p.2) (hge : ∀ v ∈ o, rk v ≤ f v)
    (hf : ∀ c ∈ o, Crit g rk c → f c = rk c) {s v w : VId} (hs : ¬ Crit g rk s) (hsv : (s, v) ∈ g.pairs) (hfs : f s = rk s)
    (hw : w ∈ o) (hws : w ≠ s) (h3 : f s ≤ f w) (h4 : f w < f v) : Crit g rk w := by
  by_contra hc
  have hso : s ∈ o := (B.ends _ hsv).1
  obtain ⟨p, hp, hcon⟩ := (G.edges_iff s v).mp hsv
  obtain ⟨hsp, hvp⟩ := consec_mem hcon
  obtain ⟨x, hx, hxc, hxr, q1, hq1, hxq, hxn⟩ := crit_beside B G hne hw hc
  obtain ⟨y, hy, hyc, hyr, q2, hq2, hyq, hyn⟩ := crit_beside B G hne hso hs
  obtain ⟨q, hq, hwq⟩ := on_path G hne (B.mem.mp hw)
  have hinc' : ∀ {p : WPath}, p ∈ ps → p.path.Pairwise (fun a b => f a < f b) := fun hp => G.path_increasing hinc hp
  -- `w` is not on the path of `s`
  have hqp : p ≠ q := by
    rintro rfl
    rcases pairwise_total (hinc' hp) hsp hwq with h | h | h
    · exact hws h.symm
    · rcases consec_next (hinc' hp) hcon hwq h with h' | h'
      · subst h'; omega
      · omega
    · omega
  have e1 : q1 = p := by
    have := hxn q hq hwq
    rcases h2 p hp q hq q1 hq1 with h | h | h
    · exact absurd h hqp
    · exact absurd h this
    · exact h.symm
  have e2 : q2 = q := by
    have := hyn p hp hsp
    rcases h2 p hp q hq q2 hq2 with h | h | h
    · exact absurd h hqp
    · exact h.symm
    · exact absurd h this
  subst e1; subst e2
  have fx := hf x hx hxc
  have fy := hf y hy hyc
  have hge' := hge w hw
  rcases Nat.lt_trichotomy (rk w) (rk s) with hlt | heq | hgt
  · -- `w` was moved beyond `y`
    rcases pairwise_total ((path_inc B G hq).and (hinc' hq)) hwq hyq with h | h | h
    · subst h; omega
    · omega
    · omega
  · rcases pairwise_total (path_inc B G hq) hwq hyq with h | h | h
    · subst h; exact hc hyc
    · omega
    · omega
  · rcases consec_next (hinc' hp) hcon hxq (by omega) with h | h
    · subst h; omega
    · omega

/-- Vertex `s` with successor `v` has been placed: it stays when `v` follows immediately, otherwise it is beside the most
similar of the vertices in between, the first of them if there are several. -/
def NearPlaced (ratio : RatioFn) (g : VGraph) (rk : VId → Nat) (o : List VId) (n : List (VId × VId)) (f : VId → Nat) (s v : VId) :
    Prop :=
  (f v = rk s + 1 ∧ ∀ p ∈ n, p.2 ≠ s) ∨
  ∃ w, (w, s) ∈ n ∧ w ≠ s ∧ rk s + 1 < f v ∧ rk s ≤ rk w ∧ rk w < f v ∧ ∀ c ∈ o, c ≠ s → f c = rk c → rk s ≤ f c → f c < f v →
    ratio (g.vertexStr s) (g.vertexStr c) ≤ ratio (g.vertexStr s) (g.vertexStr w) ∧
    (f c < rk w → ratio (g.vertexStr s) (g.vertexStr c) < ratio (g.vertexStr s) (g.vertexStr w))

/-- The state during near matching of two witnesses, with the edges still to come. -/
structure TwoSt (ratio : RatioFn) (g : VGraph) (rk : VId → Nat) (o : List VId) (m : Nat) (n : List (VId × VId)) (f : VId → Nat)
    (es : List Edge) (s : VGraph × Ranking) : Prop where
  graph : s.1 = g.withNear n
  ranked : RankedBy o f m s.2
  near : ∀ p ∈ n, p.1 ∈ o ∧ p.2 ∈ o ∧ Crit g rk p.1 ∧ ¬ Crit g rk p.2 ∧ f p.2 = rk p.1
  nd : (n.map Prod.snd).Nodup
  stay : ∀ w ∈ o, (∀ p ∈ n, p.2 ≠ w) → f w = rk w
  inc : ∀ p ∈ g.pairs, f p.1 < f p.2
  ge : ∀ w ∈ o, rk w ≤ f w
  todo : ∀ e ∈ es, e ∈ g.edges ∧ ∀ p ∈ n, p.2 ≠ e.src
  todo_nd : es.Nodup
  order : es.Pairwise (fun a b => b.src ≠ a.tgt)
  done : ∀ e ∈ g.edges, e ∉ es → ¬ Crit g rk e.src → (∀ e' ∈ es, e'.src ≠ e.tgt) ∧ NearPlaced ratio g rk o n f e.src e.tgt

theorem TwoSt.crit {ratio : RatioFn} {n : List (VId × VId)} {f : VId → Nat} {es : List Edge} {s : VGraph × Ranking}
    (T : TwoSt ratio g rk o m n f es s) : ∀ c ∈ o, Crit g rk c → f c = rk c := by
  intro c hc hcc
  apply T.stay c hc
  rintro p hp rfl
  exact (T.near p hp).2.2.2.1 hcc

theorem edge_ext {g : VGraph} (h : g.pairs.Nodup) {e e' : Edge} (he : e ∈ g.edges) (he' : e' ∈ g.edges) (h1 : e.src = e'.src)
    (h3 : e.tgt = e'.tgt) : e = e' :=
  List.inj_on_of_nodup_map h he he' (by rw [h1, h3])

include B in
/-- The ranking of the graph with these near edges. -/
theorem two_rerank {n : List (VId × VId)} {f : VId → Nat} (hnear : ∀ p ∈ n, p.1 ∈ o ∧ p.2 ∈ o ∧ Crit g rk p.1 ∧
      ¬ Crit g rk p.2 ∧ f p.2 = rk p.1) (hnd : (n.map Prod.snd).Nodup)
    (hstay : ∀ w ∈ o, (∀ p ∈ n, p.2 ≠ w) → f w = rk w) :
    ∃ r', rankingOf ts (g.withNear n) = .ok r' ∧ RankedBy o f m r' := by
  obtain ⟨r', f', b1, b2, b3, b4, _⟩ := rankingOf_near B.nd B.topo B.pass (B.rank.ranked B.nd) n (fun p hp => (hnear p hp).1)
  refine ⟨r', b1, ?_⟩
  have hff : ∀ x ∈ o, f' x = f x := by
    intro x hx
    by_cases hm : ∃ p ∈ n, p.2 = x
    · obtain ⟨⟨u, _⟩, hp, rfl⟩ := hm
      obtain ⟨_, _, c1, _, c3⟩ := hnear _ hp
      rw [b4 _ hx u (inNear_single hnd hp) (inNear_nil (by
        rintro q hq rfl
        exact (hnear q hq).2.2.2.1 c1))]
      exact c3.symm
    · have hm' : ∀ p ∈ n, p.2 ≠ x := fun p hp h => hm ⟨p, hp, h⟩
      rw [b3 x (inNear_nil hm'), hstay x hx hm']
  refine ⟨?_, ?_, ?_⟩
  · rw [b2.bv]; apply List.map_congr_left; intro x hx; rw [hff x hx]
  · obtain ⟨L, l1, l2, l3⟩ := b2.br
    refine ⟨L, l1, l2, fun k hk v => ?_⟩
    rw [l3 k hk v]
    constructor
    · rintro ⟨x1, x2⟩; exact ⟨x1, by rw [← hff v x1]; exact x2⟩
    · rintro ⟨x1, x2⟩; exact ⟨x1, by rw [hff v x1]; exact x2⟩
  · intro v hv; rw [← hff v hv]; exact b2.lt v hv

include B G hne h2 in
theorem twoSt_step (ratio : RatioFn) {n : List (VId × VId)} {f : VId → Nat} {e : Edge} {es : List Edge}
    {s : VGraph × Ranking} (T : TwoSt ratio g rk o m n f (e :: es) s) :
    ∃ s', nearEdge ts ratio e.tgt s e = .ok s' ∧ ∃ n' f', TwoSt ratio g rk o m n' f' es s' := by
  obtain ⟨g', r'⟩ := s
  have hg := T.graph
  simp only at hg
  subst hg
  obtain ⟨he, hun⟩ := T.todo e (by simp)
  have hpe := mem_pairs_of_edge he
  have hso : e.src ∈ o := (B.ends _ hpe).1
  rcases nearEdge_cases ts ratio T.ranked (g := g.withNear n) B.ends (B.full T.crit) he with ⟨hc, hwhy⟩ | ⟨w, hw, a1, a2, a3, a4, a5, amax, a6⟩
  · refine ⟨_, hc, n, f, ⟨rfl, T.ranked, T.near, T.nd, T.stay, T.inc, T.ge, fun x hx => T.todo x (by simp [hx]),
      (List.nodup_cons.mp T.todo_nd).2, (List.pairwise_cons.mp T.order).2, ?_⟩⟩
    intro x hx hxe hxc
    by_cases hxe' : x = e
    · subst hxe'
      refine ⟨(List.pairwise_cons.mp T.order).1, .inl ⟨?_, hun⟩⟩
      have hlt := T.inc _ hpe
      simp only at hlt
      rw [T.stay _ hso hun] at hwhy hlt
      rcases hwhy with h | ⟨y, hy1, hy2⟩
      · omega
      · rw [one_out B G hne h2 hso hxc hpe hy1]; exact hy2
    · obtain ⟨x1, x2⟩ := T.done x hx (by simp [hxe, hxe']) hxc
      exact ⟨fun e' he' => x1 e' (by simp [he']), x2⟩
  · have hs : ¬ Crit g rk e.src := B.moved T.ranked T.crit hpe a2 a3
    have hfs := T.stay _ hso hun
    have hwc := window_crit B G hne h2 T.inc T.ge T.crit hs hpe hfs hw a1 a4 a5
    have hfw := T.crit w hw hwc
    have hnot : (w, e.src) ∉ n := fun h => hun _ h rfl
    rw [connectNear_withNear, if_neg hnot] at a6
    -- the new ranks
    let f' : VId → Nat := fun x => if x = e.src then rk w else f x
    have hne' : ∀ x, x ≠ e.src → f' x = f x := fun x hx => by simp [f', hx]
    have hse : f' e.src = rk w := by simp [f']
    have hnear : ∀ p ∈ n ++ [(w, e.src)], p.1 ∈ o ∧ p.2 ∈ o ∧ Crit g rk p.1 ∧ ¬ Crit g rk p.2 ∧ f' p.2 = rk p.1 := by
      intro p hp
      rcases List.mem_append.mp hp with hp | hp
      · obtain ⟨x1, x2, x3, x4, x5⟩ := T.near p hp
        exact ⟨x1, x2, x3, x4, by rw [hne' _ (hun p hp)]; exact x5⟩
      · simp only [List.mem_singleton] at hp
        subst hp
        exact ⟨hw, hso, hwc, hs, hse⟩
    have hnd : ((n ++ [(w, e.src)]).map Prod.snd).Nodup := by
      rw [List.map_append, List.nodup_append]
      refine ⟨T.nd, by simp, ?_⟩
      intro a ha b hb
      obtain ⟨p, hp, rfl⟩ := List.mem_map.mp ha
      simp only [List.map_cons, List.map_nil, List.mem_singleton] at hb
      subst hb
      exact hun p hp
    have hstay : ∀ x ∈ o, (∀ p ∈ n ++ [(w, e.src)], p.2 ≠ x) → f' x = rk x := by
      intro x hx hpx
      have hxs : x ≠ e.src := fun h => hpx (w, e.src) (by simp) h.symm
      rw [hne' x hxs]
      exact T.stay x hx (fun p hp => hpx p (by simp [hp]))
    obtain ⟨r2, b1, R2⟩ := two_rerank B hnear hnd hstay
    rw [b1] at a6
    refine ⟨_, a6, _, f', ⟨rfl, R2, hnear, hnd, hstay, ?_, ?_, ?_, (List.nodup_cons.mp T.todo_nd).2,
      (List.pairwise_cons.mp T.order).2, ?_⟩⟩
    · rintro ⟨a, b⟩ hab
      have h0 := T.inc _ hab
      simp only at h0 ⊢
      by_cases ha : a = e.src
      · subst ha
        have hb : b = e.tgt := one_out B G hne h2 hso hs hab hpe
        subst hb
        rw [hse, hne' _ (by intro h; rw [h] at h0; omega)]
        omega
      · rw [hne' a ha]
        by_cases hb : b = e.src
        · subst hb; rw [hse]; omega
        · rw [hne' b hb]; exact h0
    · intro x hx
      by_cases hxs : x = e.src
      · subst hxs; rw [hse]; omega
      · rw [hne' x hxs]; exact T.ge x hx
    · intro x hx
      obtain ⟨x1, x2⟩ := T.todo x (by simp [hx])
      refine ⟨x1, ?_⟩
      intro p hp
      rcases List.mem_append.mp hp with hp | hp
      · exact x2 p hp
      · simp only [List.mem_singleton] at hp
        subst hp
        intro h
        simp only at h
        have ht : e.tgt = x.tgt := one_out B G hne h2 hso hs hpe (by rw [h]; exact mem_pairs_of_edge x1)
        have := edge_ext G.edges_nd he x1 h ht
        subst this
        exact (List.nodup_cons.mp T.todo_nd).1 hx
    · intro x hx hxe hxc
      have hback : ∀ c ∈ o, f' c = rk c → f c = rk c := by
        intro c hc h
        by_cases hcs : c = e.src
        · subst hcs; exact hfs
        · rw [← hne' c hcs]; exact h
      by_cases hxe' : x = e
      · subst hxe'
        have htgt : f' x.tgt = f x.tgt := hne' _ (by intro h; rw [h] at a2; omega)
        refine ⟨(List.pairwise_cons.mp T.order).1, .inr ⟨w, by simp, a1, by omega, by omega, by omega, ?_⟩⟩
        intro c hc hcs hcr hc1 hc2
        have e1 := hback c hc hcr
        have e2 := amax c hc hcs (by omega) (by omega)
        exact ⟨e2.1, fun h => e2.2 (by omega)⟩
      · obtain ⟨x1, x2⟩ := T.done x hx (by simp [hxe, hxe']) hxc
        have hxt : x.tgt ≠ e.src := fun h => x1 e (by simp) h.symm
        have hxs : x.src ≠ e.src := by
          intro h
          have ht : x.tgt = e.tgt := one_out B G hne h2 (B.ends _ (mem_pairs_of_edge hx)).1 hxc (mem_pairs_of_edge hx)
            (by rw [h]; exact hpe)
          exact hxe' (edge_ext G.edges_nd hx he h ht)
        refine ⟨fun e' he' => x1 e' (by simp [he']), ?_⟩
        rcases x2 with ⟨y1, y2⟩ | ⟨y, y1, y2, y3, y4, y5, y6⟩
        · refine .inl ⟨by rw [hne' _ hxt]; exact y1, ?_⟩
          intro p hp
          rcases List.mem_append.mp hp with hp | hp
          · exact y2 p hp
          · simp only [List.mem_singleton] at hp
            subst hp
            exact fun h => hxs h.symm
        · refine .inr ⟨y, by simp [y1], y2, by rw [hne' _ hxt]; exact y3, y4, by rw [hne' _ hxt]; exact y5, ?_⟩
          intro c hc hcs hcr hc1 hc2
          rw [hne' _ hxt] at hc2
          have e1 := hback c hc hcr
          have e2 := y6 c hc hcs e1 (by omega) (by omega)
          exact ⟨e2.1, fun h => e2.2 (by omega)⟩

include B in
/-- An edge out of a vertex is handled before the edges into it. -/
theorem near_order : (o.reverse.flatMap g.inEdges).Pairwise (fun a b => b.src ≠ a.tgt) := by
  rw [List.pairwise_flatMap]
  refine ⟨?_, ?_⟩
  · intro v _
    apply List.pairwise_of_forall_mem_list
    intro a ha b hb h
    obtain ⟨_, h3⟩ := mem_inEdges.mp ha
    obtain ⟨h4, h5⟩ := mem_inEdges.mp hb
    have := B.rank.isRank.lt B.wf (mem_pairs_of_edge h4)
    rw [h, h3, h5] at this
    omega
  · rw [List.pairwise_reverse, List.pairwise_iff_getElem]
    intro i j hi hj hij a ha b hb h
    obtain ⟨_, h3⟩ := mem_inEdges.mp ha
    obtain ⟨h4, h5⟩ := mem_inEdges.mp hb
    have hsplit : o = o.take i ++ o[i] :: o.drop (i + 1) := by
      rw [← List.drop_eq_getElem_cons hi, List.take_append_drop]
    have h6 := B.rank.topo.before _ (mem_pairs_of_edge h4) (o.take i) (o.drop (i + 1)) (by simp only; rw [h5]; exact hsplit)
    simp only at h6
    rw [h, h3] at h6
    obtain ⟨k, hk, hk'⟩ := List.mem_iff_getElem.mp h6
    rw [List.getElem_take] at hk'
    rw [List.length_take] at hk
    have := (List.Nodup.getElem_inj_iff B.nd).mp hk'
    omega

include B G hne h2 in
/-- With at most two witnesses the ranks after near matching grow along every edge. -/
theorem performNearMatch_two (ratio : RatioFn) :
    ∃ n r' f, performNearMatch ts ratio g r = .ok (g.withNear n, r') ∧ RankedBy o f m r' ∧
      (∀ p ∈ g.pairs, f p.1 < f p.2) ∧ (∀ c ∈ o, Crit g rk c → f c = rk c) ∧ (∀ w ∈ o, rk w ≤ f w) ∧
      (∀ p ∈ n, p.1 ∈ o ∧ f p.2 = rk p.1 ∧ f p.1 = rk p.1) ∧ (∀ w ∈ o, (∀ p ∈ n, p.2 ≠ w) → f w = rk w) ∧
      (∀ e ∈ g.edges, ¬ Crit g rk e.src → NearPlaced ratio g rk o n f e.src e.tgt) := by
  obtain ⟨s, h1, n, f, T⟩ := nearVertices_inv ts ratio g (fun es s => ∃ n f, TwoSt ratio g rk o m n f es s)
    (by rintro _ s ⟨n, f, T⟩ v; rw [T.graph]; rfl)
    (by rintro e es s _ ⟨n, f, T⟩; exact twoSt_step B G hne h2 ratio T)
    o.reverse (g, r) ⟨[], rk, (withNear_self B.nil).symm, B.rank.ranked B.nd, by simp, by simp, fun _ _ _ => rfl,
      fun p hp => B.rank.isRank.lt B.wf (u := p.1) (v := p.2) hp, fun _ _ => Nat.le_refl _,
      (by
        intro e he
        obtain ⟨v, _, he⟩ := List.mem_flatMap.mp he
        exact ⟨(mem_inEdges.mp he).1, by simp⟩),
      (by
        rw [List.nodup_flatMap]
        have he : g.edges.Nodup := G.edges_nd.of_map _
        refine ⟨fun v _ => he.filter _, (List.nodup_reverse.mpr B.nd).imp ?_⟩
        intro a b hab e h3 h4
        exact hab ((mem_inEdges.mp h3).2.symm.trans (mem_inEdges.mp h4).2)),
      near_order B,
      (by
        intro e he hn
        exact absurd (List.mem_flatMap.mpr ⟨e.tgt, List.mem_reverse.mpr (B.ends _ (mem_pairs_of_edge he)).2,
          mem_inEdges.mpr ⟨he, rfl⟩⟩) hn)⟩
  obtain ⟨r2, b1, b2⟩ := two_rerank B T.near T.nd T.stay
  refine ⟨n, r2, f, ?_, b2, T.inc, T.crit, T.ge,
    fun p hp => ⟨(T.near p hp).1, (T.near p hp).2.2.2.2, T.crit _ (T.near p hp).1 (T.near p hp).2.2.1⟩, T.stay,
    fun e he hc => (T.done e he (by simp) hc).2⟩
  unfold performNearMatch
  rw [B.topo]
  simp only [bind_ok, h1]
  rw [T.graph, b1]
  rfl

end

end CollateX
