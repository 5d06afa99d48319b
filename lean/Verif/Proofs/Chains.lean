import Mathlib.Data.List.SplitBy
import Verif.Proofs.JoinLoop
import Verif.Proofs.Progressive
/-
What segmentation joins: the chains of vertices that always stand together.
-/

namespace CollateX
open Spec

theorem consec_append {l m : List VId} {a b : VId} : Consec (l ++ m) a b ↔
    Consec l a b ∨ Consec m a b ∨ (l.getLast? = some a ∧ m.head? = some b) := by
  induction l with
  | nil => simp [Consec]
  | cons x l ih =>
    rw [List.cons_append, consec_cons, ih, consec_cons]
    cases l with
    | nil =>
      have hn : ¬ Consec ([] : List VId) a b := fun h => by simpa using h.mem_left
      simp only [List.nil_append, List.head?_nil, List.getLast?_nil, List.getLast?_singleton, Option.some.injEq]
      have : x = a ↔ a = x := eq_comm
      tauto
    | cons y l =>
      simp only [List.cons_append, List.head?_cons, List.getLast?_cons_cons]
      tauto

/-- Each vertex of a graph `g` stands for a chain of vertices of an earlier graph `g0`. -/
structure Chained (g0 : VGraph) (ps0 : List WPath) (word : VId → Str) (K : VId → List VId) (g : VGraph) (ps : List WPath) : Prop where
  head : ∀ v ∈ g.vertices, ∃ l, K v = v :: l
  nodup : ∀ v ∈ g.vertices, (K v).Nodup
  disj : ∀ v ∈ g.vertices, ∀ u ∈ g.vertices, ∀ x, x ∈ K v → x ∈ K u → v = u
  pairs : ∀ a b, (a, b) ∈ g0.pairs ↔ (∃ v ∈ g.vertices, Consec (K v) a b) ∨ ∃ v, (v, b) ∈ g.pairs ∧ (K v).getLast? = some a
  chain : ∀ v ∈ g.vertices, (K v).IsChain (fun x y => Joinable g0 x y)
  sub : ∀ v ∈ g.vertices, v ∈ g0.vertices
  paths : List.Forall₂ (fun p p0 => p0.inner = p.inner.flatMap K) ps ps0
  words : ∀ p ∈ ps, ∀ v ts, (v, ts) ∈ p.segs → ts.map Token.str = (K v).map word

theorem forall₂_of_mem {α β : Type*} {P Q : α → β → Prop} {l : List α} {m : List β} (h : List.Forall₂ P l m)
    (hPQ : ∀ a b, a ∈ l → P a b → Q a b) : List.Forall₂ Q l m := by
  induction h with
  | nil => exact .nil
  | cons h1 _ ih => exact .cons (hPQ _ _ (by simp) h1) (ih (fun a b ha => hPQ a b (by simp [ha])))

theorem chained_join (cc : CharClass) {g0 : VGraph} {ps0 : List WPath} (h0 : GInv g0 ps0) (word : VId → Str) :
    StepInv cc (fun g ps => ∃ K, Chained g0 ps0 word K g ps) := by
  rintro g ps v c x hg J hvs _ _ ⟨K, H⟩
  have hvc := J.ne hg
  have hvm : v ∈ g.vertices := (hg.wf.ends _ J.edge).1
  have hcm : c ∈ g.vertices := (hg.wf.ends _ J.edge).2
  obtain ⟨kc, hkc⟩ := H.head c hcm
  obtain ⟨kv, hkv⟩ := H.head v hvm
  obtain ⟨z, hz⟩ : ∃ z, (K v).getLast? = some z := by
    rw [hkv]
    exact ⟨_, List.getLast?_eq_some_getLast (by simp)⟩
  have hzm : z ∈ K v := List.mem_of_getLast? hz
  have hlast : ∀ {u : VId}, u ∈ g.vertices → (K u).getLast? = some z → u = v :=
    fun hu h => H.disj _ hu _ hvm z (List.mem_of_getLast? h) hzm
  -- nothing follows a last vertex, and nothing stands before a first one
  have hno : ∀ {l : List VId} {a b : VId}, l.Nodup → l.getLast? = some a → ¬ Consec l a b := by
    intro l a b hnd hl hc
    obtain ⟨i, h1, h2⟩ := consec_iff_getElem.mp hc
    rw [List.getLast?_eq_getElem?] at hl
    have h3 := (List.getElem?_eq_some_iff.mp h2).1
    have := getElem_unique hnd h1 hl
    omega
  have hno' : ∀ {l : List VId} {a b : VId}, l.Nodup → l.head? = some b → ¬ Consec l a b := by
    intro l a b hnd hl hc
    obtain ⟨i, h1, h2⟩ := consec_iff_getElem.mp hc
    rw [List.head?_eq_getElem?] at hl
    have h3 := (List.getElem?_eq_some_iff.mp h2).1
    have := getElem_unique hnd h2 hl
    omega
  have hJ : Joinable g0 z c := by
    rw [joinable_iff h0.edges_nd]
    refine ⟨?_, ?_, J.ne_end, ?_⟩
    · exact (H.pairs z c).mpr (Or.inr ⟨v, J.edge, hz⟩)
    · intro b hb
      rcases (H.pairs z b).mp hb with ⟨u, hu, hc⟩ | ⟨u, hu, hl⟩
      · obtain rfl := H.disj _ hu _ hvm z hc.mem_left hzm
        exact absurd hc (hno (H.nodup _ hu) hz)
      · obtain rfl := hlast (hg.wf.ends _ hu).1 hl
        exact J.succ hu
    · intro a ha
      rcases (H.pairs a c).mp ha with ⟨u, hu, hc⟩ | ⟨u, hu, hl⟩
      · obtain rfl := H.disj _ hu _ hcm c hc.mem_right (by rw [hkc]; simp)
        exact absurd hc (hno' (H.nodup _ hu) (by rw [hkc]; rfl))
      · obtain rfl := J.pred hu
        rw [hz] at hl
        exact (Option.some.inj hl).symm
  have hKv : ∀ u, u ≠ v → (if u = v then K v ++ K c else K u) = K u := fun u hu => if_neg hu
  refine ⟨fun u => if u = v then K v ++ K c else K u, ?_, ?_, ?_, ?_, ?_, ?_, ?_, ?_⟩
  · intro u hu
    obtain ⟨hu1, hu2⟩ := mem_vertices_joined.mp hu
    by_cases h : u = v
    · subst h
      exact ⟨kv ++ K c, by simp [hkv]⟩
    · simp only [h, if_false]
      exact H.head u hu1
  · intro u hu
    obtain ⟨hu1, hu2⟩ := mem_vertices_joined.mp hu
    by_cases h : u = v
    · subst h
      simp only [if_true]
      rw [List.nodup_append]
      refine ⟨H.nodup _ hvm, H.nodup _ hcm, ?_⟩
      rintro a ha b hb rfl
      exact hvc (H.disj _ hvm _ hcm a ha hb)
    · simp only [h, if_false]
      exact H.nodup u hu1
  · have key : ∀ u ∈ (joined g c v x).vertices, ∀ y, y ∈ (if u = v then K v ++ K c else K u) → ∃ u' ∈ g.vertices, y ∈ K u' ∧
        ((u' = c ∧ u = v) ∨ (u' = u ∧ u ≠ c)) := by
      intro u hu y hy
      obtain ⟨hu1, hu2⟩ := mem_vertices_joined.mp hu
      by_cases h : u = v
      · rw [if_pos h] at hy
        rcases List.mem_append.mp hy with hy | hy
        · exact ⟨v, hvm, hy, Or.inr ⟨h.symm, hu2⟩⟩
        · exact ⟨c, hcm, hy, Or.inl ⟨rfl, h⟩⟩
      · rw [if_neg h] at hy
        exact ⟨u, hu1, hy, Or.inr ⟨rfl, hu2⟩⟩
    intro u hu u' hu' y hy hy'
    obtain ⟨a, ha, hya, h1⟩ := key u hu y hy
    obtain ⟨b, hb, hyb, h2⟩ := key u' hu' y hy'
    have hab := H.disj a ha b hb y hya hyb
    rcases h1 with ⟨h1, h3⟩ | ⟨h1, h3⟩ <;> rcases h2 with ⟨h2, h4⟩ | ⟨h2, h4⟩
    · rw [h3, h4]
    · exact absurd (by rw [← h2, ← hab, h1]) h4
    · exact absurd (by rw [← h1, hab, h2]) h3
    · rw [← h1, ← h2, hab]
  · intro a b
    rw [H.pairs]
    constructor
    · rintro (⟨u, hu, hc⟩ | ⟨u, hu, hl⟩)
      · left
        by_cases h : u = v ∨ u = c
        · refine ⟨v, mem_vertices_joined.mpr ⟨hvm, hvc⟩, ?_⟩
          rw [if_pos rfl, consec_append]
          rcases h with rfl | rfl
          · exact Or.inl hc
          · exact Or.inr (Or.inl hc)
        · push Not at h
          refine ⟨u, mem_vertices_joined.mpr ⟨hu, h.2⟩, ?_⟩
          rw [if_neg h.1]
          exact hc
      · by_cases h : u = v
        · subst h
          obtain rfl := J.succ hu
          left
          refine ⟨u, mem_vertices_joined.mpr ⟨hvm, hvc⟩, ?_⟩
          rw [if_pos rfl, consec_append]
          exact Or.inr (Or.inr ⟨hl, by rw [hkc]; rfl⟩)
        · right
          by_cases h' : u = c
          · subst h'
            refine ⟨v, (mem_pairs_joined hvc).mpr (Or.inr ⟨rfl, hu⟩), ?_⟩
            rw [if_pos rfl, List.getLast?_append, hl]
            rfl
          · refine ⟨u, (mem_pairs_joined hvc).mpr (Or.inl ⟨hu, h, h'⟩), ?_⟩
            rw [if_neg h]
            exact hl
    · rintro (⟨u, hu, hc⟩ | ⟨u, hu, hl⟩)
      · obtain ⟨hu1, hu2⟩ := mem_vertices_joined.mp hu
        by_cases h : u = v
        · subst h
          rw [if_pos rfl, consec_append] at hc
          rcases hc with hc | hc | ⟨h1, h2⟩
          · exact Or.inl ⟨u, hvm, hc⟩
          · exact Or.inl ⟨c, hcm, hc⟩
          · rw [hkc] at h2
            obtain rfl : c = b := by simpa using h2
            exact Or.inr ⟨u, J.edge, h1⟩
        · rw [if_neg h] at hc
          exact Or.inl ⟨u, hu1, hc⟩
      · right
        rcases (mem_pairs_joined hvc).mp hu with ⟨h1, h2, h3⟩ | ⟨rfl, h1⟩
        · rw [if_neg h2] at hl
          exact ⟨u, h1, hl⟩
        · rw [if_pos rfl, List.getLast?_append_of_ne_nil _ (by rw [hkc]; simp)] at hl
          exact ⟨c, h1, hl⟩
  · intro u hu
    obtain ⟨hu1, hu2⟩ := mem_vertices_joined.mp hu
    by_cases h : u = v
    · subst h
      simp only [if_true]
      rw [List.isChain_append]
      refine ⟨H.chain _ hvm, H.chain _ hcm, ?_⟩
      intro a ha b hb
      rw [hkc] at hb
      obtain rfl : c = b := by simpa using hb
      rw [hz] at ha
      obtain rfl := Option.some.inj ha
      exact hJ
    · simp only [h, if_false]
      exact H.chain u hu1
  · intro u hu
    exact H.sub u (mem_vertices_joined.mp hu).1
  · rw [List.forall₂_map_left_iff]
    refine forall₂_of_mem H.paths ?_
    intro p p0 hp he
    rw [he]
    unfold WPath.inner contractPath
    have hcong : ∀ {l : List VId}, v ∉ l → l.flatMap (fun u => if u = v then K v ++ K c else K u) = l.flatMap K := by
      intro l hl
      apply List.flatMap_congr
      intro u hu
      exact if_neg (fun h : u = v => hl (h ▸ hu))
    rcases J.segs hg hvs hp with ⟨⟨h1, h2⟩, h3⟩ | ⟨A, B, ts, us, h1, h2, h3, h4, h5, h6⟩
    · simp only [h3]
      exact (hcong h1).symm
    · simp only [h2]
      rw [h1]
      simp only [List.map_append, List.map_cons, List.flatMap_append, List.flatMap_cons, if_true]
      rw [hcong h3, hcong h5, List.append_assoc]
  · intro p' hp' u ts hu
    obtain ⟨p, hp, rfl⟩ := List.mem_map.mp hp'
    rcases (J.mem_segs hg hvs hp).mp hu with ⟨h1, h2, h3⟩ | ⟨rfl, t1, t2, h1, h2, rfl⟩
    · simp only [h1, if_false]
      exact H.words p hp u ts h3
    · simp only [if_true]
      rw [List.map_append, List.map_append, H.words p hp _ _ h1, H.words p hp _ _ h2]

/-- At first every vertex stands for itself. -/
theorem chained_first {W : Work} {g : VGraph} {ps : List WPath} (T : Tracks W g ps)
    (h1 : ∀ p ∈ ps, ∀ q ∈ p.segs, ∃ t, q.2 = [t]) : Chained g ps (fun v => (W.words[v - 2]?).getD []) (fun v => [v]) g ps := by
  refine ⟨fun v _ => ⟨[], rfl⟩, fun v _ => by simp, ?_, ?_, fun v _ => by simp, fun v hv => hv, ?_, ?_⟩
  · intro v _ u _ x h1 h2
    rw [← List.mem_singleton.mp h1, ← List.mem_singleton.mp h2]
  · intro a b
    have hn : ∀ v, ¬ Consec [v] a b := by
      intro v h
      obtain ⟨i, h1, h2⟩ := consec_iff_getElem.mp h
      have := (List.getElem?_eq_some_iff.mp h2).1
      simp at this
    constructor
    · intro h
      exact Or.inr ⟨a, h, rfl⟩
    · rintro (⟨v, _, h⟩ | ⟨v, h, h2⟩)
      · exact absurd h (hn v)
      · have : v = a := by simpa using h2
        rwa [← this]
  · rw [List.forall₂_same]
    intro p _
    simp
  · intro p hp v ts h
    obtain ⟨t, ht⟩ := h1 p hp _ h
    simp only at ht
    subst ht
    simp [T.words p hp v t h]

section
variable {W : Work} {g0 g : VGraph} {ps0 ps : List WPath} {word : VId → Str} {K : VId → List VId}

/-- Two nodes that follow each other in a text are always together exactly if their vertices can be joined. -/
theorem glued_iff (hg : GInv g0 ps0) (N : Nodes W g0 ps0) {r : List Nat} (hr : r ∈ W.rows) {a b i : Nat} (ha : r[i]? = some a)
    (hb : r[i + 1]? = some b) : W.glued a b = true ↔ Joinable g0 (a + 2) (b + 2) := by
  have hz : ∀ {r : List Nat} {a b : Nat}, (a, b) ∈ r.zip r.tail ↔ ∃ i : Nat, r[i]? = some a ∧ r[i + 1]? = some b := by
    intro r a b
    rw [List.mem_iff_getElem?]
    refine exists_congr fun i => ?_
    rw [List.getElem?_zip_eq_some]
    simp
  have hgl : W.glued a b = true ↔ ∀ r ∈ W.rows, (a ∉ r ∧ b ∉ r) ∨ ∃ i : Nat, r[i]? = some a ∧ r[i + 1]? = some b := by
    unfold Work.glued
    rw [List.all_eq_true]
    refine forall₂_congr fun r _ => ?_
    rw [Bool.or_eq_true, Bool.and_eq_true, Bool.not_eq_true', Bool.not_eq_true', List.contains_iff_mem, hz]
    simp
  have hnd : ∀ {r : List Nat}, r ∈ W.rows → r.Nodup := by
    intro r hr
    obtain ⟨p, hp, he⟩ := N.path_of hr
    have := hg.path_nodup hp
    unfold WPath.path at this
    rw [he] at this
    have := (List.nodup_append.mp (List.nodup_cons.mp this).2).1
    exact this.of_map _
  rw [hgl]
  constructor
  · intro h
    have hedge : (a + 2, b + 2) ∈ g0.pairs := (N.edge hg).mpr (mem_before.mpr ⟨r, hr, i, ha, hb⟩)
    rw [joinable_iff hg.edges_nd]
    refine ⟨hedge, ?_, (Nodes.inner b).2, ?_⟩
    · intro y hy
      obtain ⟨p, hp, hc⟩ := (hg.edges_iff _ _).mp hy
      obtain ⟨r', hr', he⟩ := N.row_of hp
      have ham : a ∈ r' := by
        have := hc.mem_left
        unfold WPath.path at this
        rw [he] at this
        simp only [List.mem_cons, List.mem_append, List.mem_map, List.not_mem_nil, or_false] at this
        rcases this with h | ⟨x, hx, h⟩ | h
        · exact absurd h (Nodes.inner a).1
        · rwa [← show x = a by omega]
        · exact absurd h (Nodes.inner a).2
      rcases h r' hr' with ⟨h1, _⟩ | ⟨k, h1, h2⟩
      · exact absurd ham h1
      · have hnp := hg.path_nodup hp
        obtain ⟨k', h3, h4⟩ := consec_iff_getElem.mp hc
        have hk : p.path[k + 1]? = some (a + 2) ∧ p.path[k + 1 + 1]? = some (b + 2) := by
          unfold WPath.path
          rw [he, List.getElem?_cons_succ, List.getElem?_cons_succ,
            List.getElem?_append_left (by simpa using (List.getElem?_eq_some_iff.mp h1).1),
            List.getElem?_append_left (by simpa using (List.getElem?_eq_some_iff.mp h2).1), List.getElem?_map, List.getElem?_map, h1, h2]
          exact ⟨rfl, rfl⟩
        have := getElem_unique hnp h3 hk.1
        subst this
        rw [hk.2] at h4
        exact (Option.some.inj h4).symm
    · intro y hy
      obtain ⟨p, hp, hc⟩ := (hg.edges_iff _ _).mp hy
      obtain ⟨r', hr', he⟩ := N.row_of hp
      have ham : b ∈ r' := by
        have := hc.mem_right
        unfold WPath.path at this
        rw [he] at this
        simp only [List.mem_cons, List.mem_append, List.mem_map, List.not_mem_nil, or_false] at this
        rcases this with h | ⟨x, hx, h⟩ | h
        · exact absurd h (Nodes.inner b).1
        · rwa [← show x = b by omega]
        · exact absurd h (Nodes.inner b).2
      rcases h r' hr' with ⟨_, h1⟩ | ⟨k, h1, h2⟩
      · exact absurd ham h1
      · have hnp := hg.path_nodup hp
        obtain ⟨k', h3, h4⟩ := consec_iff_getElem.mp hc
        have hk : p.path[k + 1]? = some (a + 2) ∧ p.path[k + 1 + 1]? = some (b + 2) := by
          unfold WPath.path
          rw [he, List.getElem?_cons_succ, List.getElem?_cons_succ,
            List.getElem?_append_left (by simpa using (List.getElem?_eq_some_iff.mp h1).1),
            List.getElem?_append_left (by simpa using (List.getElem?_eq_some_iff.mp h2).1), List.getElem?_map, List.getElem?_map, h1, h2]
          exact ⟨rfl, rfl⟩
        have := getElem_unique hnp h4 hk.2
        obtain rfl : k' = k + 1 := by omega
        rw [hk.1] at h3
        exact (Option.some.inj h3).symm
  · intro J r' hr'
    obtain ⟨p, hp, he⟩ := N.path_of hr'
    have hm : ∀ x, x ∈ r' ↔ x + 2 ∈ p.inner := by
      intro x
      rw [he, List.mem_map]
      constructor
      · intro h
        exact ⟨x, h, rfl⟩
      · rintro ⟨y, h1, h2⟩
        rwa [← show y = x by omega]
    rcases J.segs hg (Nodes.inner a).1 hp with ⟨⟨h1, h2⟩, _⟩ | ⟨A, B, ts, us, h1, _⟩
    · exact Or.inl ⟨fun h => h1 ((hm _).mp h), fun h => h2 ((hm _).mp h)⟩
    · right
      have h2 : p.inner = A.map Prod.fst ++ (a + 2) :: (b + 2) :: B.map Prod.fst := by
        unfold WPath.inner
        rw [h1]
        simp
      have h3 : ∀ {k x : Nat}, p.inner[k]? = some (x + 2) → r'[k]? = some x := by
        intro k x h
        rw [he, List.getElem?_map] at h
        obtain ⟨y, h5, h6⟩ := Option.map_eq_some_iff.mp h
        rw [h5, show y = x by omega]
      refine ⟨A.length, h3 ?_, h3 ?_⟩
      · rw [h2, List.getElem?_append_right (by simp)]
        simp
      · rw [h2, List.getElem?_append_right (by simp)]
        simp

/-- What is left after joining: the texts, cut wherever two vertices could not be joined. -/
theorem Chained.splits (H : Chained g0 ps0 word K g ps) (h0 : GInv g0 ps0) (hg : GInv g ps) (hmax : Maximal g) (N : Nodes W g0 ps0)
    {p p0 : WPath} {r : List Nat} (hp : p ∈ ps) (he : p0.inner = p.inner.flatMap K) (hr : r ∈ W.rows) (hp0 : p0.inner = r.map (· + 2)) :
    r.splitBy W.glued = p.inner.map (fun v => (K v).map (· - 2)) := by
  have hin : ∀ v ∈ p.inner, v ∈ g.vertices ∧ v ≠ startV := by
    intro v hv
    obtain ⟨q, hq, rfl⟩ := List.mem_map.mp hv
    have := hg.segs_in p hp q hq
    exact ⟨this.1, this.2.1⟩
  have hge : ∀ v ∈ p.inner, ∀ x ∈ K v, ∃ n ∈ r, x = n + 2 := by
    intro v hv x hx
    have : x ∈ p0.inner := by rw [he]; exact List.mem_flatMap.mpr ⟨v, hv, hx⟩
    rw [hp0] at this
    obtain ⟨n, h1, h2⟩ := List.mem_map.mp this
    exact ⟨n, h1, h2.symm⟩
  have hback : ∀ v ∈ p.inner, ((K v).map (· - 2)).map (· + 2) = K v := by
    intro v hv
    rw [List.map_map]
    conv_rhs => rw [← List.map_id (K v)]
    apply List.map_congr_left
    intro x hx
    obtain ⟨n, _, rfl⟩ := hge v hv x hx
    simp
  -- consecutive vertices of the earlier path
  have hcr : ∀ {a b : Nat}, Consec p0.inner (a + 2) (b + 2) → (W.glued a b = true ↔ Joinable g0 (a + 2) (b + 2)) := by
    intro a b hc
    obtain ⟨i, h1, h2⟩ := consec_iff_getElem.mp hc
    rw [hp0, List.getElem?_map] at h1 h2
    obtain ⟨x, h3, h4⟩ := Option.map_eq_some_iff.mp h1
    obtain ⟨y, h5, h6⟩ := Option.map_eq_some_iff.mp h2
    obtain rfl : x = a := by omega
    obtain rfl : y = b := by omega
    exact glued_iff h0 N hr h3 h5
  have hchunk : ∀ {v : VId}, v ∈ p.inner → ∀ {a b : VId}, Consec (K v) a b → Consec p0.inner a b := by
    intro v hv a b hc
    rw [he]
    obtain ⟨A, B, hAB⟩ := List.append_of_mem hv
    rw [hAB, List.flatMap_append, List.flatMap_cons]
    exact consec_append.mpr (Or.inr (Or.inl (consec_append.mpr (Or.inl hc))))
  rw [List.splitBy_eq_iff]
  refine ⟨?_, ?_, ?_, ?_⟩
  · have h1 : r = (p0.inner).map (· - 2) := by
      rw [hp0, List.map_map]
      simp [Function.comp_def]
    rw [h1, he, List.map_flatMap]
    rfl
  · intro h
    obtain ⟨v, hv, h1⟩ := List.mem_map.mp h
    obtain ⟨l, hl⟩ := H.head v (hin v hv).1
    rw [hl] at h1
    simp at h1
  · intro l hl
    obtain ⟨v, hv, rfl⟩ := List.mem_map.mp hl
    rw [List.isChain_map]
    have hch := H.chain v (hin v hv).1
    rw [List.isChain_iff_getElem] at hch ⊢
    intro i hi
    have h1 := hch i hi
    have hc : Consec (K v) (K v)[i] (K v)[i + 1] := consec_iff_getElem.mpr ⟨i, List.getElem?_eq_getElem _, List.getElem?_eq_getElem _⟩
    obtain ⟨a, _, ha⟩ := hge v hv _ hc.mem_left
    obtain ⟨b, _, hb⟩ := hge v hv _ hc.mem_right
    rw [ha, hb] at h1 hc ⊢
    exact (hcr (hchunk hv hc)).mpr h1
  · rw [List.isChain_map, List.isChain_iff_getElem]
    intro i hi
    have hu : p.inner[i] ∈ p.inner := List.getElem_mem _
    have hv : p.inner[i + 1] ∈ p.inner := List.getElem_mem _
    have hcon : Consec p.inner p.inner[i] p.inner[i + 1] := consec_iff_getElem.mpr ⟨i, List.getElem?_eq_getElem _, List.getElem?_eq_getElem _⟩
    generalize p.inner[i] = u at hu hcon ⊢
    generalize p.inner[i + 1] = v at hv hcon ⊢
    obtain ⟨lu, hlu⟩ := H.head u (hin u hu).1
    obtain ⟨lv, hlv⟩ := H.head v (hin v hv).1
    have hune : K u ≠ [] := by rw [hlu]; simp
    have hvne : K v ≠ [] := by rw [hlv]; simp
    refine ⟨by simpa using hune, by simpa using hvne, ?_⟩
    rw [List.getLast_map, List.head_map]
    have hlast : (K u).getLast? = some ((K u).getLast hune) := List.getLast?_eq_some_getLast hune
    have hhead : (K v).head hvne = v := by simp [hlv]
    rw [hhead]
    obtain ⟨a, _, ha⟩ := hge u hu _ (List.getLast_mem hune)
    obtain ⟨b, _, hb⟩ := hge v hv v (by rw [hlv]; simp)
    have hedge : (u, v) ∈ g.pairs := by
      rw [hg.edges_iff]
      refine ⟨p, hp, ?_⟩
      unfold WPath.path
      rw [consec_cons, consec_append]
      exact Or.inr (Or.inl hcon)
    have hc0 : Consec p0.inner (a + 2) (b + 2) := by
      obtain ⟨A, B, hAB⟩ := hcon
      have hAB : p.inner = A ++ (u :: v :: B) := by rw [← hAB]; simp
      rw [he, hAB, List.flatMap_append, List.flatMap_cons, List.flatMap_cons]
      refine consec_append.mpr (Or.inr (Or.inl (consec_append.mpr (Or.inr (Or.inr ⟨?_, ?_⟩)))))
      · rw [hlast, ha]
      · rw [hlv, hb]
        rfl
    by_contra hne
    rw [Bool.not_eq_false, ha, hb] at hne
    have J := (hcr hc0).mp hne
    refine hmax u v (hin u hu).2 ((joinable_iff hg.edges_nd).mpr ⟨hedge, ?_, ?_, ?_⟩)
    · intro y hy
      rw [hb]
      exact J.succ ((H.pairs _ _).mpr (Or.inr ⟨u, hy, by rw [hlast, ha]⟩))
    · rw [hb]
      exact J.ne_end
    · intro y hy
      have hym := (hg.wf.ends _ hy).1
      obtain ⟨ly, hly⟩ := H.head y hym
      have hyl := List.getLast?_eq_some_getLast (show K y ≠ [] by rw [hly]; simp)
      have := J.pred ((H.pairs _ _).mpr (Or.inr ⟨y, by rw [← hb]; exact hy, hyl⟩))
      refine H.disj y hym u (hin u hu).1 (a + 2) ?_ ?_
      · rw [← this]
        exact List.getLast_mem _
      · rw [← ha]
        exact List.getLast_mem _

end

end CollateX
