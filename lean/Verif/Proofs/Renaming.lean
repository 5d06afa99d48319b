import Verif.Proofs.TwoRuns
import Verif.Proofs.CollateOK
import Verif.Proofs.Order
import Verif.Proofs.NearTwo
/-
Runs on inputs with the same pattern of equal tokens, as long as no two vertices of a rank have the same label.
-/

namespace CollateX
open Spec

theorem Shape.symm {n : Nat} {us us' : List Witness} (h : Shape n us us') : Shape n us' us := by
  intro k hk
  obtain ⟨w, w', h1, h2, h3⟩ := h k hk
  exact ⟨w', w, h2, h1, h3.symm⟩

theorem TokRel.symm {us us' : List Witness} {t t' : Token} (h : TokRel us us' t t') : TokRel us' us t' t := by
  obtain ⟨k, i, w, w', h1, h2, h3, h4⟩ := h
  exact ⟨k, i, w', w, h2, h1, h4, h3⟩

/-- A placed token has a corresponding placed token. -/
theorem Placed.transfer {n : Nat} {ti ti' : TokenIndex} (hsh : Shape n ti.ws ti'.ws) {s' : AlignSt} {ps ps' : List WPath}
    (hin : ps.map WPath.inner = ps'.map WPath.inner) (hs' : AInv ti' s' ps') (hn : ps.length ≤ n) {pos : Nat} {v : VId} {t : Token}
    (hp : Placed ti.ws ps pos v t) : ∃ t', Placed ti'.ws ps' pos v t' ∧ TokRel ti.ws ti'.ws t t' := by
  obtain ⟨k, i, w, p, h1, h2, h3, h4, h5⟩ := hp
  have hk := (List.getElem?_eq_some_iff.mp h2).1
  obtain ⟨u, w', g1, g2, g3⟩ := hsh k (by omega)
  rw [h1] at g1
  obtain rfl := Option.some.inj g1
  have hi := (List.getElem?_eq_some_iff.mp h3).1
  obtain ⟨t', ht'⟩ : ∃ t', w'.tokens[i]? = some t' := ⟨_, List.getElem?_eq_getElem (by omega)⟩
  have hin : (ps'.map WPath.inner)[k]? = some p.inner := by rw [← hin, List.getElem?_map, h2]; rfl
  rw [List.getElem?_map] at hin
  obtain ⟨p', hp', he⟩ := Option.map_eq_some_iff.mp hin
  have hseg : (p'.segs.map Prod.snd)[i]? = some [t'] := by
    rw [(hs'.reads k w' p' g2 hp').2, List.getElem?_map, ht']; rfl
  have hin2 : p'.inner[i]? = some v := by
    rw [he]; unfold WPath.inner; rw [List.getElem?_map, h4]; rfl
  unfold WPath.inner at hin2
  rw [List.getElem?_map] at hseg hin2
  obtain ⟨⟨a, l⟩, e1, e2⟩ := Option.map_eq_some_iff.mp hseg
  rw [e1] at hin2
  simp only [Option.map_some, Option.some.injEq] at hin2 e2
  subst hin2; subst e2
  exact ⟨t', ⟨k, i, w', p', g2, hp', ht', e1, by rw [h5, hsh.off k (by omega)]⟩, k, i, w, w', h1, g2, h3, ht'⟩

theorem Placed.arr {ti : TokenIndex} (L : Layout ti) {ps : List WPath} {pos : Nat} {v : VId} {t : Token}
    (hp : Placed ti.ws ps pos v t) : ti.arr[pos]? = some t := by
  obtain ⟨k, i, w, p, h1, h2, h3, h4, rfl⟩ := hp
  exact L.arr_tok k i w t h1 h3

theorem Placed.lt {ti : TokenIndex} {ps : List WPath} (hl : ps.length ≤ ti.ws.length) {pos : Nat} {v : VId} {t : Token}
    (hp : Placed ti.ws ps pos v t) : pos < off ti.ws ps.length := by
  obtain ⟨k, i, w, p, h1, h2, h3, h4, rfl⟩ := hp
  have hk := (List.getElem?_eq_some_iff.mp h2).1
  have hi := (List.getElem?_eq_some_iff.mp h3).1
  have := off_lt ti.ws k ps.length w h1 hk hl
  omega

/-- The tokens that correspond are equal exactly when the tokens they correspond to are. -/
def SameEqualities (us us' : List Witness) : Prop :=
  ∀ t t' u u', TokRel us us' t t' → TokRel us us' u u' → (t.str = u.str ↔ t'.str = u'.str)

theorem SameEqualities.symm {us us' : List Witness} (h : SameEqualities us us') : SameEqualities us' us :=
  fun _ _ _ _ h1 h2 => (h _ _ _ _ h1.symm h2.symm).symm

/-- No two vertices of the same rank carry the same string. -/
def NoTwins (ts : TopoFn) (ti : TokenIndex) (s : AlignSt) : Prop :=
  ∀ (ps : List WPath) (r : Ranking) (p q : Nat) (u v : VId) (t t' : Token), AInv ti s ps → rankingOf ts s.g = .ok r →
    Placed ti.ws ps p u t → Placed ti.ws ps q v t' → t.str = t'.str → dget r.byVertex u = dget r.byVertex v → u = v

section
variable {ts : TopoFn} {ti ti' : TokenIndex} {n : Nat}

/-- Half of the correspondence: an entry of the one cube is an entry of the other. -/
theorem cube_transfer (L : Layout ti) (L' : Layout ti') (hsh : Shape n ti.ws ti'.ws) (he : SameEqualities ti.ws ti'.ws)
    {s s' : AlignSt} {ps ps' : List WPath} (hs : AInv ti s ps) (hs' : AInv ti' s' ps')
    (hin : ps.map WPath.inner = ps'.map WPath.inner) (hn : ps.length < n) {w w' : Witness} (hw : ti.ws[ps.length]? = some w)
    (hw' : ti'.ws[ps'.length]? = some w') {P P' : WPath} {rkf rkf' : VId → Nat} {o o' : List VId} {m m' : Nat} {r r' : Ranking}
    {cube cube' : Cube} {cells cells' : List (List Score)} {al al' : Dict Token VId}
    (S : StepOf ts none ti s ps w P rkf o m r cube cells al) (S' : StepOf ts none ti' s' ps' w' P' rkf' o' m' r' cube' cells' al')
    (hrk : ∀ pos v t, Placed ti.ws ps pos v t → rkf v = rkf' v) {key : Int × Int} {v : VId} {t : Token}
    (hg : dget cube key = some (v, t)) :
    ∃ (i q : Nat) (x : Token) (t' : Token), Placed ti.ws ps q v x ∧ x.str = t.str ∧ w.tokens[i]? = some t ∧ w'.tokens[i]? = some t' ∧
      key = ((i : Int), (rkf v : Int) - 1) ∧ cube'.has key.1 key.2 = true := by
  have hl : ps.length = ps'.length := by simpa using congrArg List.length hin
  rw [← hl] at hw'
  obtain ⟨a, a', g1, g2, g3⟩ := hsh _ hn
  rw [hw] at g1
  obtain rfl := Option.some.inj g1
  rw [hw'] at g2
  obtain rfl := Option.some.inj g2
  obtain ⟨i, q, t1, h1, h2, h3, h4, h5, h6, _⟩ := S.hits key v t hg
  obtain ⟨x, hx⟩ := (hs.va q v).mp h3
  have hx1 := hx.arr L
  rw [h5] at hx1
  obtain rfl := Option.some.inj hx1
  obtain ⟨x', hx', hxx⟩ := hx.transfer hsh hin hs' (by omega)
  have hi := (List.getElem?_eq_some_iff.mp h1).1
  obtain ⟨t', ht'⟩ : ∃ t', w'.tokens[i]? = some t' := ⟨_, List.getElem?_eq_getElem (by omega)⟩
  refine ⟨i, q, t1, t', hx, h6, h1, ht', h2, ?_⟩
  have hstr : x'.str = t'.str := (he _ _ _ _ hxx ⟨_, i, w, w', hw, hw', h1, ht'⟩).mp h6
  have hlt := hx'.lt hs'.len
  have := S'.complete rfl i q t' x' v ht' hlt (hx'.arr L') ((hs'.va q v).mpr ⟨x', hx'⟩) hstr
  rw [h2, hrk q v t1 hx]
  exact this

/-- The cubes correspond if there are no twins. -/
theorem cubeRel_of_noTwins (L : Layout ti) (L' : Layout ti') (hsh : Shape n ti.ws ti'.ws) (he : SameEqualities ti.ws ti'.ws)
    {s s' : AlignSt} {ps ps' : List WPath} (hs : AInv ti s ps) (hs' : AInv ti' s' ps')
    (h : Sim ti ti' s s' ps ps') (hn : ps.length < n) {w w' : Witness} (hw : ti.ws[ps.length]? = some w)
    (hw' : ti'.ws[ps'.length]? = some w') {P P' : WPath} {rkf rkf' : VId → Nat} {o o' : List VId} {m m' : Nat} {r r' : Ranking}
    {cube cube' : Cube} {cells cells' : List (List Score)} {al al' : Dict Token VId}
    (S : StepOf ts none ti s ps w P rkf o m r cube cells al) (S' : StepOf ts none ti' s' ps' w' P' rkf' o' m' r' cube' cells' al')
    (ht : NoTwins ts ti s) : CubeRel (TokRel ti.ws ti'.ws) cube cube' := by
  have hr : r = r' := by
    have e := S.ranking
    rw [h.graph.ranking, S'.ranking] at e
    exact (Except.ok.inj e).symm
  subst hr
  have hmem : ∀ {pos v t}, Placed ti.ws ps pos v t → v ∈ s.g.vertices := by
    rintro pos v t ⟨k, i, x, p, h1, h2, h3, h4, h5⟩
    exact (hs.ginv.segs_in p (List.mem_of_getElem? h2) _ (List.mem_of_getElem? h4)).1
  have hrk : ∀ pos v t, Placed ti.ws ps pos v t → rkf v = rkf' v := by
    intro pos v t hp
    have h1 := S.rank.byVertex (hmem hp)
    rw [S'.rank.byVertex (by rw [← h.graph.vertices]; exact hmem hp)] at h1
    exact (Option.some.inj h1).symm
  have hrk' : ∀ pos v t, Placed ti'.ws ps' pos v t → rkf' v = rkf v := by
    intro pos v t hp
    obtain ⟨t0, h0, _⟩ := hp.transfer hsh.symm h.inner.symm hs (by rw [← h.len]; omega)
    exact (hrk _ _ _ h0).symm
  intro key
  cases e : dget cube key with
  | none =>
    cases e' : dget cube' key with
    | none => exact .none
    | some p' =>
      exfalso
      obtain ⟨i, q, x, t', _, _, _, _, _, h1⟩ := cube_transfer L' L hsh.symm he.symm hs' hs h.inner.symm (by rw [← h.len]; exact hn) hw' hw
        S' S hrk' (v := p'.1) (t := p'.2) e'
      unfold Cube.has dmem at h1
      rw [Prod.mk.eta, e] at h1
      exact Bool.noConfusion h1
  | some p =>
    obtain ⟨v, t⟩ := p
    obtain ⟨i, q, x, t', h1, h2, h3, h4, h5, h6⟩ := cube_transfer L L' hsh he hs hs' h.inner hn hw hw' S S' hrk e
    have h7 : ∃ p', dget cube' key = some p' := by
      unfold Cube.has dmem at h6
      rw [Prod.mk.eta] at h6
      exact Option.isSome_iff_exists.mp h6
    obtain ⟨⟨v', t2⟩, e'⟩ := h7
    obtain ⟨j, q', x', t3, k1, k2, k3, k4, k5, _⟩ := cube_transfer L' L hsh.symm he.symm hs' hs h.inner.symm (by rw [← h.len]; exact hn)
      hw' hw S' S hrk' e'
    rw [h5] at k5
    have hij : i = j := by
      have := congrArg Prod.fst k5
      simpa using this
    subst hij
    have hv : rkf v = rkf' v' := by
      have := congrArg Prod.snd k5
      simp only at this
      omega
    rw [h4] at k3
    obtain rfl := Option.some.inj k3
    obtain ⟨y, hy, hyy⟩ := k1.transfer hsh.symm h.inner.symm hs (by rw [← h.len]; omega)
    have htt : TokRel ti.ws ti'.ws t t' := ⟨_, i, w, w', hw, by rw [h.len]; exact hw', h3, h4⟩
    have hy2 : y.str = t.str := (he _ _ _ _ hyy.symm htt).mpr k2
    have hvv : v = v' := ht ps r q q' v v' x y hs S.ranking h1 hy (h2.trans hy2.symm) (by
      rw [S.rank.byVertex (hmem h1), S.rank.byVertex (hmem hy), hv, hrk _ _ _ hy])
    subst hvv
    rw [e']
    exact .some ⟨rfl, htt⟩

/-- Two whole runs of the aligner on the first `n` witnesses. -/
theorem runs_of_noTwins (hts : TopoSpec ts) (L : Layout ti) (L' : Layout ti') (B : BlocksOK ti) (B' : BlocksOK ti')
    (hsh : Shape n ti.ws ti'.ws) (he : SameEqualities ti.ws ti'.ws) (hne : ∀ a b, SigRel ti.ws ti'.ws a b → a ≠ [] ∧ b ≠ [])
    {w w' : Witness} {rest rest' : List Witness} {s s' : AlignSt} (hn : n = rest.length + 1) (hl : rest.length = rest'.length)
    (hr : w :: rest <+: ti.ws) (hr' : w' :: rest' <+: ti'.ws) (h : firstWitness ti w = .ok s) (h' : firstWitness ti' w' = .ok s')
    (ha : Along ts none ti (NoTwins ts ti) rest s) :
    ∃ t t' qs qs', alignWitnesses ts none false ti rest s = .ok t ∧ alignWitnesses ts none false ti' rest' s' = .ok t' ∧
      AInv ti t qs ∧ AInv ti' t' qs' ∧ qs.length = n ∧ Sim ti ti' t t' qs qs' := by
  obtain ⟨y, hy⟩ := hr
  obtain ⟨y', hy'⟩ := hr'
  have hw0 : ti.ws[0]? = some w := by rw [← hy]; rfl
  have hw0' : ti'.ws[0]? = some w' := by rw [← hy']; rfl
  obtain ⟨s1, h1, h2⟩ := firstWitness_ok L hw0
  obtain ⟨s1', h1', h2'⟩ := firstWitness_ok L' hw0'
  rw [h] at h1
  obtain rfl := Except.ok.inj h1
  rw [h'] at h1'
  obtain rfl := Except.ok.inj h1'
  have hsim := Sim.first hsh (by omega) (sigRel_oneOne L.sig_nd L'.sig_nd) hne hw0 hw0' h h'
  obtain ⟨t, t', qs, qs', c1, c2, c3, c4, c5, c6⟩ := Sim.loop (pf := none) (pf' := none) (n := n) (H := NoTwins ts ti) hts L L' B B' hsh hne
    (fun s s' ps ps' w w' P P' rkf rkf' o o' m m' r r' cube cube' cells cells' al al' a1 a2 a3 a4 a5 a6 a7 a8 a9 =>
      cubeRel_of_noTwins L L' hsh he a1 a2 a3 a4 a5 a6 a7 a8 a9) rest rest' s s' _ _ h2 h2' (by simp) hsim
    ⟨y, by rw [← hy]; rfl⟩ ⟨y', by rw [← hy']; rfl⟩ hl (by simp; omega) ha
  exact ⟨t, t', qs, qs', c1, c2, c3, c4, by rw [c5]; simp; omega, c6⟩

end

theorem along_snoc {ts : TopoFn} {pf : Option PFilter} {ti : TokenIndex} {H : AlignSt → Prop} (l : List Witness) (w : Witness) :
    ∀ s, Along ts pf ti H l s → (∀ t, alignWitnesses ts pf false ti l s = .ok t → H t) → Along ts pf ti H (l ++ [w]) s := by
  induction l with
  | nil => intro s _ h; exact ⟨h s rfl, fun _ _ => trivial⟩
  | cons x l ih =>
    intro s ha h
    refine ⟨ha.1, fun s' hs' => ih s' (ha.2 s' hs') fun t ht => h t ?_⟩
    simp only [alignWitnesses, hs', bind_ok, ht]


/-! ### From the witnesses to the index -/

theorem tokRel_indexed {ws ws' : List Witness} {t t' : Token} (h : TokRel (indexed 0 ws) (indexed 0 ws') t t') :
    ∃ u u', TokRel ws ws' u u' ∧ t.str = u.str ∧ t'.str = u'.str := by
  obtain ⟨k, i, w, w', h1, h2, h3, h4⟩ := h
  obtain ⟨x, g1, _, g3⟩ := indexed_strs ws h1
  obtain ⟨x', g1', _, g3'⟩ := indexed_strs ws' h2
  have e : (w.tokens.map Token.str)[i]? = some t.str := by rw [List.getElem?_map, h3]; rfl
  have e' : (w'.tokens.map Token.str)[i]? = some t'.str := by rw [List.getElem?_map, h4]; rfl
  rw [g3, List.getElem?_map] at e
  rw [g3', List.getElem?_map] at e'
  obtain ⟨u, hu, hu2⟩ := Option.map_eq_some_iff.mp e
  obtain ⟨u', hu', hu2'⟩ := Option.map_eq_some_iff.mp e'
  exact ⟨u, u', ⟨k, i, x, x', g1, g1', hu, hu'⟩, hu2.symm, hu2'.symm⟩

theorem SameEqualities.indexed {ws ws' : List Witness} (h : SameEqualities ws ws') :
    SameEqualities (indexed 0 ws) (CollateX.indexed 0 ws') := by
  intro t t' u u' h1 h2
  obtain ⟨a, a', ha, e1, e2⟩ := tokRel_indexed h1
  obtain ⟨b, b', hb, e3, e4⟩ := tokRel_indexed h2
  rw [e1, e2, e3, e4]
  exact h _ _ _ _ ha hb

theorem Shape.indexed {n : Nat} {ws ws' : List Witness} (h : Shape n ws ws') : Shape n (indexed 0 ws) (CollateX.indexed 0 ws') := by
  intro k hk
  obtain ⟨w, w', h1, h2, h3⟩ := h k hk
  refine ⟨_, _, by rw [indexed_getElem?, h1]; rfl, by rw [indexed_getElem?, h2]; rfl, ?_⟩
  have hlen : ∀ (σ : Str) (ts : List Token) (p : Nat), (indexTokens σ p ts).length = ts.length := by
    intro σ ts p
    simp
  rw [hlen, hlen, h3]

theorem sigRel_ne {ws ws' : List Witness} (hs : ∀ w ∈ ws, w.sigil ≠ []) (hs' : ∀ w ∈ ws', w.sigil ≠ []) {a b : Str}
    (h : SigRel (indexed 0 ws) (indexed 0 ws') a b) : a ≠ [] ∧ b ≠ [] := by
  obtain ⟨k, w, w', h1, h2, rfl, rfl⟩ := h
  exact ⟨indexed_sigil_ne hs w (List.mem_of_getElem? h1), indexed_sigil_ne hs' w' (List.mem_of_getElem? h2)⟩

theorem take_getElem? {α : Type} {l : List α} {n k : Nat} {a : α} (h : (l.take n)[k]? = some a) : l[k]? = some a := by
  rw [List.getElem?_take] at h
  split at h
  · exact h
  · cases h

theorem sameEqualities_take (ws : List Witness) (n : Nat) : SameEqualities ws (ws.take n) := by
  have key : ∀ t t', TokRel ws (ws.take n) t t' → t = t' := by
    rintro t t' ⟨k, i, w, w', h1, h2, h3, h4⟩
    have := take_getElem? h2
    rw [h1] at this
    obtain rfl := Option.some.inj this
    rw [h3] at h4
    exact Option.some.inj h4
  intro t t' u u' h1 h2
  rw [key _ _ h1, key _ _ h2]

theorem shape_take (ws : List Witness) (n : Nat) (hn : n ≤ ws.length) : Shape n ws (ws.take n) := by
  intro k hk
  have : ws[k]? = some ws[k] := List.getElem?_eq_getElem (by omega)
  exact ⟨_, _, this, by rw [List.getElem?_take, if_pos hk]; exact this, rfl⟩

theorem _root_.CollateX.Spec.Valid.take {ws : List Witness} (hv : Valid ws) {n : Nat} (hn : 0 < n) : Valid (ws.take n) := by
  refine ⟨?_, fun w hw => hv.tokens w (List.mem_of_mem_take hw), ?_, ?_⟩
  · have := hv.ne
    cases ws with
    | nil => exact absurd rfl this
    | cons w ws =>
      obtain ⟨m, rfl⟩ : ∃ m, n = m + 1 := ⟨n - 1, by omega⟩
      simp
  · rw [List.map_take]
    exact hv.sigla.sublist (List.take_sublist _ _)
  · rintro w hw t ht ⟨i, hi, he⟩
    refine hv.sep w (List.mem_of_mem_take hw) t ht ⟨i, ?_, he⟩
    simp only [List.length_take] at hi
    omega

/-! ### Whole collations -/

section
variable {env : Env} {ws ws' : List Witness}

/-- The ranked graphs correspond if the aligned graphs do. -/
theorem collateRanked_rel (hts : TopoSpec env.topo) (hv : Valid ws) (hv' : Valid ws') {o : Opts} (ho : ExactMatching o) {ti ti' : TokenIndex}
    (hws : ti.ws = indexed 0 ws) (hws' : ti'.ws = indexed 0 ws') (L : Layout ti) (L' : Layout ti')
    {s s' : AlignSt} (h : collateGraph env.topo o.pfilter false ws = .ok (ti, s))
    (h' : collateGraph env.topo o.pfilter false ws' = .ok (ti', s')) (hg : GRel (SigRel ti.ws ti'.ws) (TokRel ti.ws ti'.ws) s.g s'.g) :
    ∃ g g' rk, collateRanked env ws o = .ok (indexed 0 ws, g, rk) ∧ collateRanked env ws' o = .ok (indexed 0 ws', g', rk) ∧
      GRel (SigRel (indexed 0 ws) (indexed 0 ws')) (TokRel (indexed 0 ws) (indexed 0 ws')) g g' := by
  obtain ⟨g, ps, rk, rkf, ord, m, h1, C⟩ := collateRanked_ok env hts hv o ho.astar ho.detect ho.near
  obtain ⟨g', ps', rk', rkf', ord', m', h1', C'⟩ := collateRanked_ok env hts hv' o ho.astar ho.detect ho.near
  have hR := sigRel_oneOne L.sig_nd L'.sig_nd
  have key : GRel (SigRel ti.ws ti'.ws) (TokRel ti.ws ti'.ws) g g' ∧ rk = rk' := by
    have e := h1
    have e' := h1'
    unfold collateRanked at e e'
    rw [if_neg (by simp [ho.astar]), ho.detect, h] at e
    rw [if_neg (by simp [ho.astar]), ho.detect, h'] at e'
    simp only [bind_ok, ho.near, Bool.false_eq_true, if_false] at e e'
    obtain ⟨r, hr, e⟩ := bind_eq_ok.mp e
    obtain ⟨r', hr', e'⟩ := bind_eq_ok.mp e'
    rw [hg.ranking, hr'] at hr
    obtain rfl := Except.ok.inj hr
    split at e
    · rename_i hseg
      rw [if_pos hseg] at e'
      obtain ⟨j, hj, e⟩ := bind_eq_ok.mp e
      obtain ⟨j', hj', e'⟩ := bind_eq_ok.mp e'
      have hjj := (hg.join hR env.cc).of_ok hj hj'
      obtain ⟨q, hq, e⟩ := bind_eq_ok.mp e
      obtain ⟨q', hq', e'⟩ := bind_eq_ok.mp e'
      rw [hjj.ranking, hq'] at hq
      obtain rfl := Except.ok.inj hq
      have e := Except.ok.inj e
      have e' := Except.ok.inj e'
      simp only [Prod.mk.injEq] at e e'
      rw [← e.2.1, ← e'.2.1, ← e.2.2, ← e'.2.2]
      exact ⟨hjj, rfl⟩
    · rename_i hseg
      rw [if_neg hseg] at e'
      have e := Except.ok.inj e
      have e' := Except.ok.inj e'
      simp only [Prod.mk.injEq] at e e'
      rw [← e.2.1, ← e'.2.1, ← e.2.2, ← e'.2.2]
      exact ⟨hg, rfl⟩
  rw [← hws, ← hws']
  refine ⟨g, g', rk, by rw [hws]; exact h1, by rw [hws', key.2]; exact h1', key.1⟩

/-- `collateGraph` as a run of the aligner. -/
theorem collateGraph_run {ts : TopoFn} {pf : Option PFilter} {ti : TokenIndex} (hti : mkTokenIndex ws = .ok ti) {w : Witness}
    {rest : List Witness} (hws : ti.ws = w :: rest) {s t : AlignSt} (h : firstWitness ti w = .ok s)
    (h2 : alignWitnesses ts pf false ti rest s = .ok t) : collateGraph ts pf false ws = .ok (ti, t) := by
  unfold collateGraph
  simp only [hti, bind_ok, hws, h, h2]

/-- A collation without near matching and segmentation is what the aligner produces, with its ranking. -/
theorem collateRanked_plain {o : Opts} (ho : ExactMatching o) {ti : TokenIndex} {s : AlignSt}
    (h : collateGraph env.topo o.pfilter false ws = .ok (ti, s)) {rk : Ranking} (hr : rankingOf env.topo s.g = .ok rk) :
    collateRanked env ws { o with segmentation := false } = .ok (ti.ws, s.g, rk) := by
  unfold collateRanked
  simp only [ho.astar, ho.detect, ho.near, Bool.false_eq_true, if_false, h, bind_ok, hr]

/-- Twins: two vertices of the same rank with the same label. -/
def _root_.CollateX.Spec.TwinFree (g : VGraph) (rk : Ranking) : Prop :=
  ∀ u v x y, dget g.nodes u = some x → dget g.nodes v = some y → x.label = y.label →
    dget rk.byVertex u = dget rk.byVertex v → u = v

/-- There are no twins after the first witness. -/
theorem noTwins_first {ts : TopoFn} (hts : TopoSpec ts) {ti : TokenIndex} (L : Layout ti) {s : AlignSt} {P : WPath}
    (h : AInv ti s [P]) : NoTwins ts ti s := by
  obtain ⟨rkf, ord, m, rk, h4, R⟩ := rankingOf_ok hts h.ginv.wf h.ginv.near
  have hinc := h.ginv.path_increasing (fun p hp => R.isRank.lt h.ginv.wf hp) (p := P) (by simp)
  have key : ∀ (ps : List WPath) (p : Nat) (u : VId) (x : Token), AInv ti s ps → Placed ti.ws ps p u x → u ∈ P.path ∧ u ∈ s.g.vertices := by
    intro ps p u x hps hp
    obtain ⟨x2, k, i, w, q, g1, g2, g3, g4, g5⟩ := (h.va p u).mp ((hps.va p u).mpr ⟨x, hp⟩)
    have hq : q = P := by simpa using List.mem_of_getElem? g2
    subst hq
    have hseg := List.mem_of_getElem? g4
    refine ⟨?_, (h.ginv.segs_in q (by simp) _ hseg).1⟩
    have : u ∈ q.inner := List.mem_map.mpr ⟨_, hseg, rfl⟩
    simp [WPath.path, this]
  intro ps r p q u v x x' hps hr hp hq _ hrank
  rw [h4] at hr
  obtain rfl := Except.ok.inj hr
  obtain ⟨a1, a2⟩ := key ps p u x hps hp
  obtain ⟨b1, b2⟩ := key ps q v x' hps hq
  rw [R.byVertex a2, R.byVertex b2] at hrank
  have hrk := Option.some.inj hrank
  rcases pairwise_total hinc a1 b1 with h | h | h
  · exact h
  · omega
  · omega

/-- If no collation of the first witnesses has twins, there are none along the whole run. -/
theorem along_of_twinFree (hts : TopoSpec env.topo) (hv : Valid ws) (hs : ∀ w ∈ ws, w.sigil ≠ []) {o : Opts} (ho : ExactMatching o)
    (hf : o.pfilter = none) {N : Nat}
    (htw : ∀ n, 2 ≤ n → n < N → ∀ us g rk, collateRanked env (ws.take n) { o with segmentation := false } = .ok (us, g, rk) → TwinFree g rk)
    {ti : TokenIndex} (hti : ti.ws = indexed 0 ws) (L : Layout ti) (B : BlocksOK ti) {w : Witness} {rest : List Witness}
    (hws : ti.ws = w :: rest) {s : AlignSt} (h : firstWitness ti w = .ok s) :
    ∀ j ≤ rest.length, j < N → Along env.topo none ti (NoTwins env.topo ti) (rest.take j) s := by
  have hlen : rest.length + 1 = ws.length := by
    have := congrArg List.length hws
    rw [hti, indexed_length] at this
    simpa using this.symm
  intro j
  induction j with
  | zero => intro _ _; simp [Along]
  | succ j ih =>
    intro hj hN
    rw [List.take_add_one, List.getElem?_eq_getElem (by omega)]
    simp only [Option.toList_some]
    apply along_snoc _ _ _ (ih (by omega) (by omega))
    intro t ht
    by_cases hj0 : j = 0
    · subst hj0
      simp only [List.take_zero, alignWitnesses, Except.ok.injEq] at ht
      subst ht
      obtain ⟨s1, h1, h2⟩ := firstWitness_ok L (w := w) (by rw [hws]; rfl)
      rw [h] at h1
      obtain rfl := Except.ok.inj h1
      exact noTwins_first hts L h2
    have hvt : Valid (ws.take (j + 1)) := hv.take (by omega)
    obtain ⟨tj, htj, hwj, Lj, Bj⟩ := hvt.tokenIndex
    obtain ⟨wj, restj, hwsj⟩ := List.exists_cons_of_ne_nil Lj.ne
    have hl : rest.take j = rest.take j ∧ restj.length = j := by
      refine ⟨rfl, ?_⟩
      have := congrArg List.length hwsj
      rw [hwj, indexed_length, List.length_take] at this
      simp at this
      omega
    obtain ⟨sj, hsj, _⟩ := firstWitness_ok Lj (w := wj) (by rw [hwsj]; rfl)
    have hsh : Shape (j + 1) ti.ws tj.ws := by rw [hti, hwj]; exact (shape_take ws (j + 1) (by omega)).indexed
    have heq : SameEqualities ti.ws tj.ws := by rw [hti, hwj]; exact (sameEqualities_take ws (j + 1)).indexed
    have hlt : (rest.take j).length = j := by rw [List.length_take]; omega
    obtain ⟨t1, t', qs, qs', c1, c2, c3, c4, c5, c6⟩ := runs_of_noTwins (ts := env.topo) (n := j + 1) hts L Lj B Bj hsh heq
      (fun a b hab => by
        rw [hti, hwj] at hab
        exact sigRel_ne hs (fun w hw => hs w (List.mem_of_mem_take hw)) hab)
      (w := w) (w' := wj) (rest := rest.take j) (rest' := restj) (by rw [hlt]) (by rw [hlt, hl.2])
      (by rw [hws]; exact List.prefix_iff_eq_take.mpr (by simp [hlt])) (by rw [hwsj]; exact List.prefix_refl _) h hsj (ih (by omega) (by omega))
    rw [ht] at c1
    obtain rfl := Except.ok.inj c1
    obtain ⟨rkf, ord, m, rk, h4, h5⟩ := rankingOf_ok hts c4.ginv.wf c4.ginv.near
    have hpl := collateRanked_plain (env := env) (ws := ws.take (j + 1)) ho (by rw [hf]; exact collateGraph_run htj hwsj hsj c2) h4
    have htf := htw (j + 1) (by omega) (by omega) _ _ _ hpl
    -- placed tokens of this run are placed in the run on the first witnesses
    have key : ∀ (ps : List WPath) (p : Nat) (u : VId) (x : Token), AInv ti t ps → Placed ti.ws ps p u x →
        ∃ y, dget t'.g.nodes u = some y ∧ y.label = x.str := by
      intro ps p u x hps hp
      obtain ⟨x2, hx2⟩ := (c3.va p u).mp ((hps.va p u).mpr ⟨x, hp⟩)
      have e := hp.arr L
      rw [hx2.arr L] at e
      obtain rfl := Option.some.inj e
      obtain ⟨x', hx', hxx⟩ := hx2.transfer hsh c6.inner c4 (by rw [c5])
      have hstr : x2.str = x'.str := by
        rw [hti, hwj] at hxx
        obtain ⟨a, a', ha, e1, e2⟩ := tokRel_indexed hxx
        obtain ⟨k, i, v, v', g1, g2, g3, g4⟩ := ha
        have := take_getElem? g2
        rw [g1] at this
        obtain rfl := Option.some.inj this
        rw [g3] at g4
        rw [e1, e2, Option.some.inj g4]
      obtain ⟨k, i, v, q, g1, g2, g3, g4, g5⟩ := hx'
      have hq := List.mem_of_getElem? g2
      have hseg := List.mem_of_getElem? g4
      have hu := (c4.ginv.segs_in q hq _ hseg).1
      obtain ⟨y, hy⟩ := exists_dget_of_mem_keys hu
      exact ⟨y, hy, by rw [hstr]; exact c4.label q hq u x' hseg y hy⟩
    intro ps r p q u v x x' hps hr hp hq hstr hrank
    obtain ⟨y, hy, hy2⟩ := key ps p u x hps hp
    obtain ⟨z, hz, hz2⟩ := key ps q v x' hps hq
    rw [c6.graph.ranking, h4] at hr
    obtain rfl := Except.ok.inj hr
    exact htf u v y z hy hz (by rw [hy2, hz2, hstr]) hrank

/-- The ranked graphs of two inputs with the same equalities, if the first has no twins. -/
theorem collateRanked_same_equalities (hts : TopoSpec env.topo) (hv : Valid ws) (hv' : Valid ws') (hs : ∀ w ∈ ws, w.sigil ≠ [])
    (hs' : ∀ w ∈ ws', w.sigil ≠ []) (hl : ws.length = ws'.length) (hsh : Shape ws.length ws ws') (he : SameEqualities ws ws')
    {o : Opts} (ho : ExactMatching o) (hf : o.pfilter = none)
    (htw : ∀ n, 2 ≤ n → n < ws.length → ∀ us g rk, collateRanked env (ws.take n) { o with segmentation := false } = .ok (us, g, rk) → TwinFree g rk) :
    ∃ g g' rk, collateRanked env ws o = .ok (indexed 0 ws, g, rk) ∧ collateRanked env ws' o = .ok (indexed 0 ws', g', rk) ∧
      GRel (SigRel (indexed 0 ws) (indexed 0 ws')) (TokRel (indexed 0 ws) (indexed 0 ws')) g g' := by
  obtain ⟨ti, hti, hws, L, B⟩ := hv.tokenIndex
  obtain ⟨ti', hti', hws', L', B'⟩ := hv'.tokenIndex
  obtain ⟨w, rest, hw⟩ := List.exists_cons_of_ne_nil L.ne
  obtain ⟨w', rest', hw'⟩ := List.exists_cons_of_ne_nil L'.ne
  obtain ⟨s, h1, _⟩ := firstWitness_ok L (w := w) (by rw [hw]; rfl)
  obtain ⟨s', h1', _⟩ := firstWitness_ok L' (w := w') (by rw [hw']; rfl)
  have e1 : rest.length + 1 = ws.length := by
    have := congrArg List.length hw
    rw [hws, indexed_length] at this
    simpa using this.symm
  have e2 : rest'.length + 1 = ws'.length := by
    have := congrArg List.length hw'
    rw [hws', indexed_length] at this
    simpa using this.symm
  have ha := along_of_twinFree hts hv hs ho hf htw hws L B hw h1 rest.length le_rfl (by omega)
  rw [List.take_length] at ha
  obtain ⟨t, t', qs, qs', c1, c2, c3, c4, c5, c6⟩ := runs_of_noTwins (ts := env.topo) (n := ws.length) hts L L' B B'
    (by rw [hws, hws']; exact hsh.indexed) (by rw [hws, hws']; exact he.indexed)
    (fun a b hab => by rw [hws, hws'] at hab; exact sigRel_ne hs hs' hab) (rest := rest) (rest' := rest') (by omega) (by omega)
    (by rw [hw]; exact List.prefix_refl _) (by rw [hw']; exact List.prefix_refl _) h1 h1' ha
  exact collateRanked_rel hts hv hv' ho hws hws' L L' (by rw [hf]; exact collateGraph_run hti hw h1 c1)
    (by rw [hf]; exact collateGraph_run hti' hw' h1' c2) c6.graph

end

end CollateX
