import Verif.Proofs.Prefix
import Verif.Proofs.Optimal
import Verif.Proofs.Table
/-
Collations in which all witnesses take the same path: identical witnesses, a single witness.
-/

namespace CollateX
open Spec

/-- All witnesses have the same vertices. -/
def SamePath (ps : List WPath) : Prop := ∀ p ∈ ps, ∀ q ∈ ps, p.inner = q.inner

/-! ### Ranks -/

section
variable {g : VGraph} {ps : List WPath} {rkf : VId → Nat} {o : List VId} {m : Nat} {r : Ranking}

theorem SamePath.path {ps : List WPath} (hsp : SamePath ps) {p q : WPath} (hp : p ∈ ps) (hq : q ∈ ps) : p.path = q.path := by
  unfold WPath.path; rw [hsp p hp q hq]

theorem SamePath.mem_path (hsp : SamePath ps) (hg : GInv g ps) {p : WPath} (hp : p ∈ ps) {v : VId} (hv : v ∈ g.vertices) :
    v ∈ p.path := by
  by_cases h1 : v = startV
  · subst h1; simp [WPath.path]
  · by_cases h2 : v = endV
    · subst h2; simp [WPath.path]
    · obtain ⟨q, hq, hvq⟩ := hg.cover v hv h1 h2
      rw [hsp q hq p hp] at hvq
      simp [WPath.path, hvq]

/-- The rank of a vertex is its place on the path. -/
theorem SamePath.rank (hsp : SamePath ps) (hg : GInv g ps) (R : RankingOf g rkf o m r) {p : WPath} (hp : p ∈ ps) :
    ∀ (i : Nat) (v : VId), p.path[i]? = some v → rkf v = i := by
  have hmem : ∀ v ∈ p.path, v ∈ g.vertices := by
    intro v hv
    unfold WPath.path at hv
    rcases List.mem_cons.mp hv with rfl | hv
    · exact hg.start_mem
    · rcases List.mem_append.mp hv with hv | hv
      · obtain ⟨q, hq, rfl⟩ := List.mem_map.mp hv
        exact (hg.segs_in p hp q hq).1
      · simp at hv; subst hv; exact hg.end_mem
  have hnd := hg.path_nodup hp
  have hpred : ∀ (i : Nat) (v u : VId), p.path[i]? = some v → (u, v) ∈ g.pairs → ∃ j, i = j + 1 ∧ p.path[j]? = some u := by
    intro i v u hv he
    obtain ⟨q, hq, hc⟩ := (hg.edges_iff u v).mp he
    rw [hsp.path hq hp] at hc
    obtain ⟨j, h1, h2⟩ := consec_iff_getElem.mp hc
    obtain ⟨hil, hie⟩ := List.getElem?_eq_some_iff.mp hv
    obtain ⟨hjl, hje⟩ := List.getElem?_eq_some_iff.mp h2
    have := (hnd.getElem_inj_iff (hi := hil) (hj := hjl)).mp (by rw [hie, hje])
    exact ⟨j, this, h1⟩
  intro i
  induction i with
  | zero =>
    intro v hv
    by_contra hne
    have hvm := hmem v (List.mem_of_getElem? hv)
    obtain ⟨u, he, _⟩ := R.isRank.pred hvm (by omega)
    obtain ⟨j, hj, _⟩ := hpred 0 v u hv he
    omega
  | succ i ih =>
    intro v hv
    have hvm := hmem v (List.mem_of_getElem? hv)
    obtain ⟨hil, hie⟩ := List.getElem?_eq_some_iff.mp hv
    have hu : p.path[i]? = some p.path[i] := List.getElem?_eq_getElem (by omega)
    have hlt := R.isRank.lt hg.wf ((hg.edges_iff _ _).mpr ⟨p, hp, consec_iff_getElem.mpr ⟨i, hu, hv⟩⟩)
    obtain ⟨u, he, h2⟩ := R.isRank.pred hvm (by omega)
    obtain ⟨j, hj, h3⟩ := hpred _ v u hv he
    have : j = i := by omega
    subst this
    have := ih u h3
    omega

theorem WPath.path_length (p : WPath) : p.path.length = p.segs.length + 2 := by simp [WPath.path, WPath.inner]

theorem WPath.path_getElem? (p : WPath) {i : Nat} {v : VId} (h : p.inner[i]? = some v) : p.path[i + 1]? = some v := by
  unfold WPath.path
  rw [List.getElem?_cons_succ, List.getElem?_append_left (List.getElem?_eq_some_iff.mp h).1]
  exact h

theorem SamePath.ranks (hsp : SamePath ps) (hg : GInv g ps) (R : RankingOf g rkf o m r) {p : WPath} (hp : p ∈ ps) :
    m = p.segs.length + 2 := by
  apply Nat.le_antisymm
  · by_contra hgt
    obtain ⟨v, hv, he⟩ := R.st.ne (p.segs.length + 2) (by omega)
    obtain ⟨i, hi⟩ := List.getElem?_of_mem (hsp.mem_path hg hp (R.topo.perm.mem_iff.mp hv))
    have := hsp.rank hg R hp i v hi
    have := (List.getElem?_eq_some_iff.mp hi).1
    rw [WPath.path_length] at this
    omega
  · have he : p.path[p.segs.length + 1]? = some endV := by
      unfold WPath.path
      rw [List.getElem?_cons_succ, List.getElem?_append_right (by simp [WPath.inner])]
      simp [WPath.inner]
    have := hsp.rank hg R hp _ _ he
    have := R.lt_m hg.end_mem
    omega

/-- Two vertices with the same rank are the same. -/
theorem SamePath.rank_inj (hsp : SamePath ps) (hg : GInv g ps) (R : RankingOf g rkf o m r) (hne : ps ≠ []) {u v : VId}
    (hu : u ∈ g.vertices) (hv : v ∈ g.vertices) (h : rkf u = rkf v) : u = v := by
  obtain ⟨p, ps', rfl⟩ := List.exists_cons_of_ne_nil hne
  have hp : p ∈ p :: ps' := by simp
  obtain ⟨i, hi⟩ := List.getElem?_of_mem (hsp.mem_path hg hp hu)
  obtain ⟨j, hj⟩ := List.getElem?_of_mem (hsp.mem_path hg hp hv)
  have h1 := hsp.rank hg R hp i u hi
  have h2 := hsp.rank hg R hp j v hj
  have : i = j := by omega
  subst this
  rw [hi] at hj
  exact Option.some.inj hj

end

/-! ### The edit table when everything matches on the diagonal -/

/-- The number of columns skipped. -/
def rights : List Step → Nat
  | [] => 0
  | .right :: ss => rights ss + 1
  | .down :: ss => rights ss
  | .diag :: ss => rights ss

theorem score_le (M : Nat → Nat → Bool) : ∀ (ss : List Step) (x y : Nat),
    pathScore M ss (x, y) + rights ss + y ≤ (endOf ss (x, y)).2 ∧ (endOf ss (x, y)).1 + y ≤ (endOf ss (x, y)).2 + x + rights ss
  | [], x, y => by simp [pathScore, rights, endOf]; omega
  | .right :: ss, x, y => by
    have := score_le M ss (x + 1) y
    simp only [pathScore, endOf, rights, Step.move, Step.score]
    omega
  | .down :: ss, x, y => by
    have := score_le M ss x (y + 1)
    simp only [pathScore, endOf, rights, Step.move, Step.score]
    split <;> omega
  | .diag :: ss, x, y => by
    have := score_le M ss (x + 1) (y + 1)
    simp only [pathScore, endOf, rights, Step.move, Step.score]
    split <;> omega

section
variable {cube : Cube} {width h : Nat} {cells : List (List Score)}

theorem TableEq.g_le (ht : TableEq cube width h cells) (hneg : ∀ x : Nat, cube.has (-1) (x : Int) = false) {y x : Nat}
    {c : Score} (hc : cellOf cells y x = some c) : c.g ≤ y ∧ c.g + x ≤ 2 * y := by
  obtain ⟨hy, hx⟩ := ht.bounds hc
  obtain ⟨ss, _, htr, _⟩ := traceback_ok ht (x + y) y x (Nat.le_refl _) hy hx
  obtain ⟨steps, h1, _, h3⟩ := htr.path ht hneg c hc
  have := score_le cube.rel steps 0 0
  rw [h1, h3] at this
  simp only at this
  omega

/-- The cells on the diagonal are matches that follow each other. -/
theorem TableEq.diagonal (ht : TableEq cube width h cells) (hneg : ∀ x : Nat, cube.has (-1) (x : Int) = false)
    (hd : ∀ i : Nat, i < h → cube.has (i : Int) (i : Int) = true) : ∀ (k : Nat) (c : Score), cellOf cells k k = some c →
      c.g = k ∧ (0 < k → c.type = .match ∧ c.px + 1 = k ∧ c.py + 1 = k) := by
  intro k
  induction k with
  | zero =>
    intro c hc
    rw [ht.origin] at hc
    obtain rfl := Option.some.inj hc
    exact ⟨rfl, by omega⟩
  | succ k ih =>
    intro c hc
    have hb := ht.bounds hc
    obtain ⟨ul, hul⟩ := ht.exists_cell (y := k) (x := k) (by omega) (by omega)
    obtain ⟨left, hleft⟩ := ht.exists_cell (y := k + 1) (x := k) (by omega) (by omega)
    obtain ⟨up, hup⟩ := ht.exists_cell (y := k) (x := k + 1) (by omega) (by omega)
    have hulg := (ih ul hul).1
    have hlg := ht.g_le hneg hleft
    have hug := ht.g_le hneg hup
    have hulok := ht.cell_ok _ _ _ hul
    have he := ht.inner k k c ul left up hc hul hleft hup
    have hm : cube.has (((k + 1 : Nat) : Int) - 1) (((k + 1 : Nat) : Int) - 1) = true := by
      have : ((k + 1 : Nat) : Int) - 1 = (k : Int) := by omega
      rw [this]; exact hd k (by omega)
    have hsc : scoreCell cube (k + 1) (k + 1) ul =
        { type := .match, x := k + 1, y := k + 1, px := ul.x, py := ul.y, g := ul.g + 1 } := by
      unfold scoreCell; rw [if_pos hm]
    have hfu : (fromUpper cube (k + 1) (k + 1) up).g ≤ k := by
      rw [fromUpper_g hneg]
      have : Step.score cube.rel .down (k + 1, k) ≤ 1 := by unfold Step.score; split <;> omega
      omega
    have hmax : max3 (scoreCell cube (k + 1) (k + 1) ul) (gap (k + 1) (k + 1) left) (fromUpper cube (k + 1) (k + 1) up) =
        scoreCell cube (k + 1) (k + 1) ul := by
      have h1 : (scoreCell cube (k + 1) (k + 1) ul).g = k + 1 := by rw [hsc]; simp only; omega
      have h2 : (gap (k + 1) (k + 1) left).g ≤ k := by simp only [gap]; omega
      have h3 : ¬ (gap (k + 1) (k + 1) left).g > (scoreCell cube (k + 1) (k + 1) ul).g := by omega
      have h4 : ¬ (fromUpper cube (k + 1) (k + 1) up).g > (scoreCell cube (k + 1) (k + 1) ul).g := by omega
      unfold max3
      simp only [if_neg h3, if_neg h4]
    rw [hmax, hsc] at he
    subst he
    refine ⟨by simp only; omega, fun _ => ⟨rfl, by simp only; rw [hulok.hx], by simp only; rw [hulok.hy]⟩⟩

/-- The loop of `align_matching_tokens` along the diagonal. -/
theorem alignLoop_diagonal (ht : TableEq cube width h cells) (hneg : ∀ x : Nat, cube.has (-1) (x : Int) = false)
    (f : Nat → VId) (tok : Nat → Token) (hd : ∀ i : Nat, i < h → dget cube ((i : Int), (i : Int)) = some (f i, tok i))
    (hf : ∀ i j, i < h → j < h → f i = f j → i = j) (htok : ∀ i j, i < h → j < h → tok i = tok j → i = j) :
    ∀ (k : Nat) (ss : List Score), k ≤ h → Trace cells k k ss → ∀ (al : Dict Token VId) (used : List VId),
      (∀ i, i < k → f i ∉ used) → ∃ al', alignLoop cube ss al used = .ok al' ∧ (∀ i, i < k → dget al' (tok i) = some (f i)) ∧
        (∀ t, (∀ i, i < k → t ≠ tok i) → dget al' t = dget al t) := by
  have hhas : ∀ i : Nat, i < h → cube.has (i : Int) (i : Int) = true := by
    intro i hi
    unfold Cube.has dmem
    rw [hd i hi]; rfl
  intro k
  induction k with
  | zero =>
    intro ss _ htr al used _
    cases htr with
    | origin => exact ⟨al, rfl, by omega, fun _ _ => rfl⟩
    | step h0 _ _ => omega
  | succ k ih =>
    intro ss hk htr al used hu
    cases htr with
    | @step _ _ c ss' h0 hc htr' =>
      obtain ⟨_, hd2⟩ := ht.diagonal hneg hhas (k + 1) c hc
      obtain ⟨hty, hpx, hpy⟩ := hd2 (by omega)
      have hok := ht.cell_ok _ _ _ hc
      have e1 : c.py = k := by omega
      have e2 : c.px = k := by omega
      rw [e1, e2] at htr'
      obtain ⟨al', h1, h2, h3⟩ := ih ss' (by omega) htr' (dset al (tok k) (f k)) (used ++ [f k]) (by
        intro i hi hmem
        rcases List.mem_append.mp hmem with hm | hm
        · exact hu i (by omega) hm
        · simp only [List.mem_singleton] at hm
          have := hf i k (by omega) (by omega) hm
          omega)
      refine ⟨al', ?_, ?_, ?_⟩
      · unfold alignLoop
        rw [if_pos hty]
        have e3 : (c.y : Int) - 1 = (k : Int) := by rw [hok.hy]; omega
        have e4 : (c.x : Int) - 1 = (k : Int) := by rw [hok.hx]; omega
        rw [e3, e4, dgetE_of_dget (hd k (by omega))]
        simp only [bind_ok]
        rw [if_neg (hu k (by omega))]
        exact h1
      · intro i hi
        by_cases hik : i = k
        · subst hik
          rw [h3 (tok i) (fun j hj he => by have := htok i j (by omega) (by omega) he; omega), dget_dset_self]
        · exact h2 i (by omega)
      · intro t htn
        rw [h3 t (fun i hi => htn i (by omega)), dget_dset_ne _ _ (fun he => htn k (by omega) he.symm)]

end

/-! ### Identical witnesses -/

theorem newSegs_all {al : Dict Token VId} : ∀ (ts : List Token) (vs : List VId) (n : VId), ts.length = vs.length →
    (∀ (i : Nat) (t : Token) (v : VId), ts[i]? = some t → vs[i]? = some v → dget al t = some v) →
    (newSegs al n ts).map Prod.fst = vs
  | [], [], _, _, _ => rfl
  | [], _ :: _, _, h, _ => by simp at h
  | _ :: _, [], _, h, _ => by simp at h
  | t :: ts, v :: vs, n, hl, h => by
    have h0 := h 0 t v rfl rfl
    simp only [newSegs, h0, List.map_cons]
    rw [newSegs_all ts vs n (by simpa using hl) (fun i t v h1 h2 => h (i + 1) t v (by simpa using h1) (by simpa using h2))]

theorem samePath_step {ts : TopoFn} {ti : TokenIndex} (L : Layout ti) (B : BlocksOK ti)
    (hid : ∀ w ∈ ti.ws, ∀ x ∈ ti.ws, w.tokens.map Token.str = x.tokens.map Token.str) :
    StepKeeps ts none ti (fun _ ps => SamePath ps) := by
  intro s s' ps w P rkf o m r cube cells al hs hne hw hs' hst hsp
  obtain ⟨p, ps0, hpe⟩ := List.exists_cons_of_ne_nil hne
  have hp0 : ps[0]? = some p := by rw [hpe]; rfl
  have hp : p ∈ ps := List.mem_of_getElem? hp0
  have hlen := hs.len
  have hpl : 0 < ps.length := List.length_pos_of_mem hp
  obtain ⟨w0, hw0⟩ : ∃ w0, ti.ws[0]? = some w0 := ⟨_, List.getElem?_eq_getElem (by omega)⟩
  have hrd := (hs.reads 0 w0 p hw0 hp0).2
  have hstr := hid w (List.mem_of_getElem? hw) w0 (List.mem_of_getElem? hw0)
  have hn0 : w.tokens.length = w0.tokens.length := by simpa using congrArg List.length hstr
  have hn : p.segs.length = w.tokens.length := by
    have := congrArg List.length hrd
    simp at this; omega
  have hinner : p.inner.length = w.tokens.length := by simp [WPath.inner, hn]
  -- the cube
  obtain ⟨cube', hc1, hiff⟩ := hs.cube L B hst.rank hw
  rw [hst.cube_ok] at hc1
  obtain rfl := Except.ok.inj hc1
  have hneg : ∀ x : Nat, cube.has (-1) (x : Int) = false := by
    intro x
    cases hb : cube.has (-1) (x : Int) with
    | false => rfl
    | true =>
      obtain ⟨i, _, hi, _⟩ := (hiff (-1) x).mp hb
      omega
  have hwid : rankCount s.g r = w.tokens.length + 1 := by
    rw [rankCount_eq hst.rank, hsp.ranks hs.ginv hst.rank hp]
    omega
  have hrank : ∀ (i : Nat) (v : VId), p.inner[i]? = some v → rkf v = i + 1 :=
    fun i v hv => hsp.rank hs.ginv hst.rank hp _ v (p.path_getElem? hv)
  have hdiag : ∀ (i : Nat) (v : VId) (t : Token), p.inner[i]? = some v → w.tokens[i]? = some t →
      dget cube ((i : Int), (i : Int)) = some (v, t) := by
    intro i v t hv ht
    have h1 : (p.segs.map Prod.snd)[i]? = (w0.tokens.map (fun t => [t]))[i]? := by rw [hrd]
    have hil := (List.getElem?_eq_some_iff.mp ht).1
    obtain ⟨t0, ht0⟩ : ∃ t0, w0.tokens[i]? = some t0 := ⟨_, List.getElem?_eq_getElem (by omega)⟩
    obtain ⟨⟨v', us⟩, hq⟩ : ∃ q, p.segs[i]? = some q := ⟨_, List.getElem?_eq_getElem (by omega)⟩
    simp only [List.getElem?_map, ht0, hq, Option.map_some, Option.some.injEq] at h1
    subst h1
    have hv' : v' = v := by
      have : p.inner[i]? = some v' := by simp [WPath.inner, hq]
      rw [hv] at this; exact (Option.some.inj this).symm
    subst hv'
    have hse : t0.str = t.str := by
      have := congrArg (fun l => l[i]?) hstr
      simp only [List.getElem?_map, ht, ht0, Option.map_some, Option.some.injEq] at this
      exact this.symm
    have hhas := (hiff (i : Int) (i : Int)).mpr ⟨i, t, rfl, ht, p, hp, v', t0, List.mem_of_getElem? hq, hse, by rw [hrank i v' hv]; omega⟩
    obtain ⟨⟨v2, t2⟩, hd⟩ := Option.isSome_iff_exists.mp (show (dget cube ((i : Int), (i : Int))).isSome = true from hhas)
    rw [hd]
    obtain ⟨i2, q, t', g1, g2, g3, _⟩ := hst.hits _ v2 t2 hd
    injection g2 with g2 g2'
    have : i2 = i := by omega
    subst this
    rw [ht] at g1
    obtain rfl := Option.some.inj g1
    obtain ⟨t3, hpl3⟩ := (hs.va q v2).mp g3
    obtain ⟨p3, hp3, hm3⟩ := hs.placed_seg hpl3
    have hv2 := (hs.ginv.segs_in p3 hp3 _ hm3).1
    have hv1 := (hs.ginv.segs_in p hp _ (List.mem_of_getElem? hq)).1
    have h4 : rkf v2 = rkf v' := by rw [hrank i2 v' hv]; omega
    have h5 : v2 = v' := hsp.rank_inj hs.ginv hst.rank hne hv2 hv1 h4
    rw [h5]
  -- indexing functions
  let f : Nat → VId := fun i => p.inner[i]?.getD 0
  let tok : Nat → Token := fun i => w.tokens[i]?.getD ⟨[], []⟩
  have hfe : ∀ i, i < w.tokens.length → p.inner[i]? = some (f i) := by
    intro i hi
    have : p.inner[i]? = some (p.inner[i]'(by omega)) := List.getElem?_eq_getElem (by omega)
    simp only [f, this, Option.getD_some]
  have hte : ∀ i, i < w.tokens.length → w.tokens[i]? = some (tok i) := by
    intro i hi
    have : w.tokens[i]? = some (w.tokens[i]'hi) := List.getElem?_eq_getElem hi
    simp only [tok, this, Option.getD_some]
  have hnd := L.tokens_nodup hw
  have hndi := hs.ginv.inner_nodup hp
  have hlenc := hst.table.len
  have hr0 : cells[0]? = some (cells[0]'(by omega)) := List.getElem?_eq_getElem (by omega)
  have hr0l := hst.table.rowlen 0 _ hr0
  obtain ⟨ss, htb, htr, _⟩ := traceback_ok hst.table (cells.length + (cells[0]'(by omega)).length) (cells.length - 1)
    ((cells[0]'(by omega)).length - 1) (by omega) (by omega) (by omega)
  have e1 : cells.length - 1 = w.tokens.length := by omega
  have e2 : (cells[0]'(by omega)).length - 1 = w.tokens.length := by omega
  have htr' : Trace cells w.tokens.length w.tokens.length ss := by rw [e1, e2] at htr; exact htr
  obtain ⟨al', ha1, ha2, _⟩ := alignLoop_diagonal hst.table hneg f tok
    (fun i hi => hdiag i _ _ (hfe i hi) (hte i hi))
    (by
      intro i j hi hj he
      have h1 := hfe i hi
      have h2 := hfe j hj
      obtain ⟨a, ha⟩ := List.getElem?_eq_some_iff.mp h1
      obtain ⟨b, hb⟩ := List.getElem?_eq_some_iff.mp h2
      exact (hndi.getElem_inj_iff (hi := a) (hj := b)).mp (by rw [ha, hb, he]))
    (by
      intro i j hi hj he
      have h1 := hte i hi
      have h2 := hte j hj
      obtain ⟨a, ha⟩ := List.getElem?_eq_some_iff.mp h1
      obtain ⟨b, hb⟩ := List.getElem?_eq_some_iff.mp h2
      exact (hnd.getElem_inj_iff (hi := a) (hj := b)).mp (by rw [ha, hb, he]))
    w.tokens.length ss (Nat.le_refl _) htr' [] [] (by simp)
  have hal : al' = al := by
    have := hst.align
    unfold alignMatching at this
    simp only [lgetE_eq_ok.mpr hr0, bind_ok, htb, ha1] at this
    exact Except.ok.inj this
  subst hal
  have hP : P.inner = p.inner := by
    rw [hst.path]
    show (newSegs al' s.g.next w.tokens).map Prod.fst = p.inner
    apply newSegs_all _ _ _ hinner.symm
    intro i t v ht hv
    have hil := (List.getElem?_eq_some_iff.mp ht).1
    have h1 := ha2 i hil
    have h2 := hfe i hil
    have h3 := hte i hil
    rw [ht] at h3
    rw [hv] at h2
    rw [Option.some.inj h3, Option.some.inj h2]
    exact h1
  intro q hq q' hq'
  have key : ∀ q ∈ ps ++ [P], q.inner = p.inner := by
    intro q hq
    rcases List.mem_append.mp hq with hq | hq
    · exact hsp q hq p hp
    · simp only [List.mem_singleton] at hq; subst hq; exact hP
  rw [key q hq, key q' hq']

/-- Joining keeps the paths the same. -/
theorem contract_inner (v c : VId) : ∀ (l l' : List (VId × List Token)), l.map Prod.fst = l'.map Prod.fst →
    (contract v c l).map Prod.fst = (contract v c l').map Prod.fst
  | [], [], _ => rfl
  | [], _ :: _, h => by simp at h
  | _ :: _, [], h => by simp at h
  | [q], [q'], h => by simpa [contract] using h
  | [q], _ :: _ :: _, h => by simp at h
  | _ :: _ :: _, [q'], h => by simp at h
  | q :: r :: l, q' :: r' :: l', h => by
    simp only [List.map_cons, List.cons.injEq] at h
    obtain ⟨h1, h2, h3⟩ := h
    unfold contract
    rw [h1, h2]
    split
    · simp [h3]
    · have := contract_inner v c (r :: l) (r' :: l') (by simp [h2, h3])
      simp [h1, this]

theorem samePath_join (cc : CharClass) : StepInv cc (fun _ ps => SamePath ps) := by
  intro g ps v c x _ _ _ _ _ hsp p hp q hq
  obtain ⟨p', hp', rfl⟩ := List.mem_map.mp hp
  obtain ⟨q', hq', rfl⟩ := List.mem_map.mp hq
  exact contract_inner v c _ _ (hsp p' hp' q' hq')

/-! ### The table -/

section
variable {cc : CharClass} {ws : List Witness} {seg : Bool} {g : VGraph} {ps : List WPath} {rk : Ranking} {rkf : VId → Nat}
  {ord : List VId} {m : Nat}

/-- When all paths are the same, every column has tokens of every witness and is not variant. -/
theorem SamePath.column (hsp : SamePath ps) (C : Collated cc ws seg g ps rk rkf ord m) (hs : ∀ w ∈ ws, w.sigil ≠ []) {c : Column}
    (hc : c ∈ (mkTable ws g rk).columns) : c.variant = false ∧ ∀ w ∈ ws, ∃ ts, dget c.tokens w.sigil = some ts := by
  obtain ⟨j, hj⟩ := List.getElem?_of_mem hc
  obtain ⟨k, hk, hcol⟩ := C.col hj
  obtain ⟨v, hv, hi⟩ := colAt_isSome.mp ⟨c, hcol⟩
  obtain ⟨hvm, hvk⟩ := (C.byRank.mem k hk v).mp hv
  have hi' := hi
  simp only [inside, decide_eq_true_eq] at hi'
  obtain ⟨p0, hp0, hvp0⟩ := C.ginv.cover v hvm hi'.1 hi'.2
  have hkey : ∀ w ∈ ws, ∃ ts, dget c.tokens w.sigil = some ts := by
    intro w hw
    obtain ⟨i, hw⟩ := List.getElem?_of_mem hw
    obtain ⟨p, hp, hpw, _⟩ := C.at hw
    have hp := List.mem_of_getElem? hp
    have hvp : v ∈ p.inner := by rw [hsp p hp p0 hp0]; exact hvp0
    obtain ⟨⟨v', ts⟩, hq, rfl⟩ := List.mem_map.mp hvp
    have h1 := (C.ginv.toks_iff (C.sigil_ne hs) (v := v') (σ := p.sigil) (ts := ts)).mpr ⟨p, hp, rfl, hq⟩
    rw [← hpw]
    exact exists_dget_of_mem_keys ((colAt_mem hcol).mpr ⟨v', hv, hi, List.mem_map.mpr ⟨_, dget_mem h1, rfl⟩⟩)
  refine ⟨?_, hkey⟩
  have hone : (ord.filter (fun v => rkf v = k)).length ≤ 1 := by
    apply length_le_one_of_nodup (C.byRank.nd k hk)
    intro a ha b hb
    obtain ⟨ha1, ha2⟩ := (C.byRank.mem k hk a).mp ha
    obtain ⟨hb1, hb2⟩ := (C.byRank.mem k hk b).mp hb
    exact hsp.rank_inj C.ginv C.rank (List.ne_nil_of_mem hp0) ha1 hb1 (by rw [ha2, hb2])
  have hlen : c.tokens.length = ws.length := by
    have hnd := colAt_nodup hcol
    have hws : (ws.map Witness.sigil).Nodup := by rw [← C.sigils]; exact C.ginv.sig_nd
    apply Nat.le_antisymm
    · have := nodup_length_le hnd (m := ws.map Witness.sigil) (by
        intro σ hσ
        obtain ⟨p, hp, rfl⟩ := (C.byRank.col_keys C.ginv (C.sigil_ne hs) hk hcol).1 σ hσ
        rw [← C.sigils]
        exact List.mem_map.mpr ⟨p, hp, rfl⟩)
      simpa using this
    · have := nodup_length_le hws (m := c.tokens.map Prod.fst) (by
        intro σ hσ
        obtain ⟨w, hw, rfl⟩ := List.mem_map.mp hσ
        obtain ⟨ts, h⟩ := hkey w hw
        exact List.mem_map.mpr ⟨_, dget_mem h, rfl⟩)
      simpa using this
  unfold colAt at hcol
  rw [columnLoop_eq] at hcol
  split at hcol
  · cases hcol
  · injection hcol with hcol
    rw [← hcol] at hlen ⊢
    simp only [Bool.or_eq_false_iff, decide_eq_false_iff_not]
    exact ⟨by omega, by simpa using hlen⟩

theorem map_some_of_filterMap {A : Type} : ∀ {l : List (Option A)} {r : List A}, l.filterMap id = r →
    (∀ o ∈ l, ∃ a, o = some a) → l = r.map some
  | [], r, h, _ => by simp at h; simp [← h]
  | none :: l, r, _, ha => by obtain ⟨a, h⟩ := ha none (by simp); cases h
  | some a :: l, r, h, ha => by
    rw [List.filterMap_cons_some (f := id) (a := some a) (b := a) rfl] at h
    rw [← h, List.map_cons, ← map_some_of_filterMap rfl (fun o ho => ha o (by simp [ho]))]

/-- The cells of a row. -/
theorem SamePath.row (hsp : SamePath ps) (C : Collated cc ws seg g ps rk rkf ord m) (hs : ∀ w ∈ ws, w.sigil ≠ []) {k : Nat}
    {w : Witness} (hw : ws[k]? = some w) : ∃ p ∈ ps, p.text = w.tokens ∧
      (mkTable ws g rk).columns.map (fun c => dget c.tokens w.sigil) = (p.segs.map Prod.snd).map some := by
  obtain ⟨p, hp, _, h2, h3⟩ := C.row hw (hs w (List.mem_of_getElem? hw))
  refine ⟨p, List.mem_of_getElem? hp, h2, map_some_of_filterMap h3 ?_⟩
  intro o ho
  obtain ⟨c, hc, rfl⟩ := List.mem_map.mp ho
  exact (hsp.column C hs hc).2 w (List.mem_of_getElem? hw)

/-- With segmentation there is one segment. -/
theorem SamePath.maximal (hsp : SamePath ps) (hg : GInv g ps) (hm : Maximal g) {p : WPath} (hp : p ∈ ps) : p.segs.length ≤ 1 := by
  by_contra hlt
  have hl := p.path_length
  have hnd := hg.path_nodup hp
  obtain ⟨v, hv⟩ : ∃ v, p.path[1]? = some v := ⟨_, List.getElem?_eq_getElem (by omega)⟩
  obtain ⟨c, hc⟩ : ∃ v, p.path[2]? = some v := ⟨_, List.getElem?_eq_getElem (by omega)⟩
  obtain ⟨hvl, hve⟩ := List.getElem?_eq_some_iff.mp hv
  obtain ⟨hcl, hce⟩ := List.getElem?_eq_some_iff.mp hc
  have huniq : ∀ (i j : Nat) (x : VId), p.path[i]? = some x → p.path[j]? = some x → i = j := by
    intro i j x hi hj
    obtain ⟨a, ha⟩ := List.getElem?_eq_some_iff.mp hi
    obtain ⟨b, hb⟩ := List.getElem?_eq_some_iff.mp hj
    exact (hnd.getElem_inj_iff (hi := a) (hj := b)).mp (by rw [ha, hb])
  have hstart : p.path[0]? = some startV := rfl
  have hend : p.path[p.segs.length + 1]? = some endV := by
    unfold WPath.path
    rw [List.getElem?_cons_succ, List.getElem?_append_right (by simp [WPath.inner])]
    simp [WPath.inner]
  apply hm v c
  · rintro rfl
    have := huniq _ _ _ hv hstart
    omega
  · rw [joinable_iff hg.edges_nd]
    refine ⟨(hg.edges_iff _ _).mpr ⟨p, hp, consec_iff_getElem.mpr ⟨1, hv, hc⟩⟩, ?_, ?_, ?_⟩
    · intro b hb
      obtain ⟨q, hq, hcq⟩ := (hg.edges_iff _ _).mp hb
      rw [hsp.path hq hp] at hcq
      obtain ⟨j, h1, h2⟩ := consec_iff_getElem.mp hcq
      have := huniq _ _ _ h1 hv
      subst this
      rw [hc] at h2; exact (Option.some.inj h2).symm
    · rintro rfl
      have := huniq _ _ _ hc hend
      omega
    · intro a ha
      obtain ⟨q, hq, hcq⟩ := (hg.edges_iff _ _).mp ha
      rw [hsp.path hq hp] at hcq
      obtain ⟨j, h1, h2⟩ := consec_iff_getElem.mp hcq
      have : j = 1 := by have := huniq _ _ _ h2 hc; omega
      subst this
      rw [hv] at h1; exact (Option.some.inj h1).symm

/-- The cells of a row: one token each without segmentation, one cell with segmentation. -/
theorem SamePath.cells (hsp : SamePath ps) (C : Collated cc ws seg g ps rk rkf ord m) (hs : ∀ w ∈ ws, w.sigil ≠ []) {k : Nat}
    {w : Witness} (hw : ws[k]? = some w) (hne : w.tokens ≠ []) : (mkTable ws g rk).columns.map (fun c => dget c.tokens w.sigil) =
      if seg then [some w.tokens] else w.tokens.map (fun t => some [t]) := by
  obtain ⟨p, hp, h1, h2⟩ := hsp.row C hs hw
  rw [h2]
  have h1' : (p.segs.map Prod.snd).flatten = w.tokens := by
    rw [← h1]; simp [WPath.text, List.flatMap]
  cases hseg : seg with
  | false =>
    have h3 := C.single hseg p hp
    have key : ∀ l : List (VId × List Token), (∀ q ∈ l, ∃ t, q.2 = [t]) →
        (l.map Prod.snd).map some = (l.map Prod.snd).flatten.map (fun t => some [t]) := by
      intro l
      induction l with
      | nil => intro _; rfl
      | cons q l ih =>
        intro hq
        obtain ⟨t, ht⟩ := hq q (by simp)
        simp only [List.map_cons, List.flatten_cons, ht, List.cons_append, List.nil_append]
        rw [ih (fun q hq' => hq q (by simp [hq']))]
    rw [key _ h3, h1']
    simp
  | true =>
    have h3 := hsp.maximal C.ginv (C.maximal hseg) hp
    rw [← h1']
    match hl : p.segs with
    | [] => rw [hl] at h1'; simp at h1'; exact absurd h1' hne
    | [q] => simp
    | _ :: _ :: _ => rw [hl] at h3; simp at h3

end

end CollateX
