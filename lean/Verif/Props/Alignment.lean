import Verif.Proofs.Prefix
import Verif.Proofs.Optimal
import Verif.Props.Graph
/-
Properties of the aligner: matches (C13), optimality of the score (C14), trace-back (C15).
-/

namespace CollateX
open Spec

/-- C13. When a witness `w` is aligned (after any number of other witnesses, without properties filter), the match cube has an
entry for a row and a column exactly if the row is the number of a token of `w`, and an earlier token with the same string is on
a vertex whose rank belongs to that column. -/
theorem C13_matches (ts : TopoFn) (hts : TopoSpec ts) (ws : List Witness) (hv : Valid ws) (hsig : ∀ w ∈ ws, w.sigil ≠ [])
    (ti : TokenIndex) (hti : mkTokenIndex ws = .ok ti) (w0 w : Witness) (pre post : List Witness)
    (hsplit : ti.ws = w0 :: (pre ++ w :: post)) (s0 s : AlignSt) (h0 : firstWitness ti w0 = .ok s0)
    (h1 : alignWitnesses ts none false ti pre s0 = .ok s) (rk : Ranking) (hrk : rankingOf ts s.g = .ok rk) (cube : Cube)
    (hcube : mkCube none ti w s.va rk = .ok cube) (y x : Int) :
    cube.has y x = true ↔
      ∃ (i r : Nat) (t t' : Token) (v : VId) (σ : Str) (us : List Token), w.tokens[i]? = some t ∧ CarriesAt s.g v σ us ∧ t' ∈ us ∧
        t'.str = t.str ∧ dget rk.byVertex v = some r ∧ y = i ∧ x = (r : Int) - 1 := by
  obtain ⟨ti', e1, hws, L, B⟩ := hv.tokenIndex
  rw [hti] at e1
  obtain rfl := Except.ok.inj e1
  obtain ⟨ps, A, hne, hw⟩ := (Before.mk ⟨w0, pre, post, s0, hsplit, h0, h1⟩).inv hts L B
  obtain ⟨rkf, o, m, r, hr, R⟩ := rankingOf_ok hts A.ginv.wf A.ginv.near
  rw [hrk] at hr
  obtain rfl := Except.ok.inj hr
  obtain ⟨c, hc, hiff⟩ := A.cube L B R hw
  rw [hcube] at hc
  obtain rfl := Except.ok.inj hc
  have hsp : ∀ p ∈ ps, p.sigil ≠ [] := by
    intro p hp
    obtain ⟨j, hj⟩ := List.getElem?_of_mem hp
    have hjl := (List.getElem?_eq_some_iff.mp hj).1
    have hlen := A.len
    obtain ⟨xw, hx⟩ : ∃ xw, ti.ws[j]? = some xw := ⟨_, List.getElem?_eq_getElem (by omega)⟩
    rw [(A.reads j xw p hx hj).1]
    have := List.mem_of_getElem? hx
    rw [hws] at this
    exact indexed_sigil_ne hsig xw this
  rw [hiff]
  constructor
  · rintro ⟨i, t, rfl, ht, p, hp, v, t', hm, hstr, rfl⟩
    have hin := A.ginv.segs_in p hp _ hm
    obtain ⟨xv, hxv⟩ := exists_dget_of_mem_keys hin.1
    exact ⟨i, rkf v, t, t', v, p.sigil, [t'], ht, ⟨xv, hxv, (A.ginv.tok v xv hxv _ (hsp p hp) _).mpr ⟨p, hp, rfl, hm⟩⟩, by simp,
      hstr, R.byVertex hin.1, rfl, rfl⟩
  · rintro ⟨i, r, t, t', v, σ, us, ht, ⟨xv, hxv, hd⟩, ht', hstr, hr, rfl, rfl⟩
    have hσ : σ ≠ [] := by
      rintro rfl
      obtain ⟨_, p, hp, h2, _⟩ := A.ginv.tok0 v xv hxv us hd
      exact hsp p hp h2
    obtain ⟨p, hp, _, hm⟩ := (A.ginv.tok v xv hxv σ hσ us).mp hd
    obtain ⟨t2, ht2⟩ := A.single p hp _ hm
    simp only at ht2
    subst ht2
    simp only [List.mem_singleton] at ht'
    subst ht'
    have hin := A.ginv.segs_in p hp _ hm
    rw [R.byVertex hin.1] at hr
    obtain rfl := Option.some.inj hr
    exact ⟨i, t, rfl, ht, p, hp, v, t', hm, hstr, rfl⟩

/-- C14. The score in the last cell of the edit table is the largest score of a path through the edit graph, and the traced-back
path is such a path. (The cube has no entries in row −1: C13.) -/
theorem C14_optimal (m : Cube) (hneg : ∀ x : Nat, m.has (-1) x = false) (width h : Nat) (hw : 0 < width)
    (cells : List (List Score)) (hc : fillTable m width h = .ok cells) :
    ∃ row last, cells[h]? = some row ∧ row[width - 1]? = some last ∧
      (∀ steps, endOf steps (0, 0) = (width - 1, h) → pathScore (fun i r => m.has i r) steps (0, 0) ≤ last.g) ∧
      ∃ ss steps, traceback cells (cells.length + width) h (width - 1) = .ok ss ∧
        endOf steps (0, 0) = (width - 1, h) ∧ visits steps (0, 0) = (ss.map (fun s => (s.x, s.y))).reverse ∧
        pathScore (fun i r => m.has i r) steps (0, 0) = last.g := by
  obtain ⟨cells', h1, ht⟩ := fillTable_eq m width h hw
  rw [hc] at h1
  obtain rfl := Except.ok.inj h1
  obtain ⟨c, hcell⟩ := ht.exists_cell (y := h) (x := width - 1) (by omega) (by omega)
  obtain ⟨row, hr, hrc⟩ := Option.bind_eq_some_iff.mp hcell
  have hlen := ht.len
  obtain ⟨ss, h2, h3, _⟩ := traceback_ok ht (cells.length + width) h (width - 1) (by omega) (by omega) (by omega)
  obtain ⟨steps, h4, h5, h6⟩ := h3.path ht hneg c hcell
  refine ⟨row, c, hr, hrc, ?_, ss, steps, h2, h4, h5, h6⟩
  intro st hst
  exact ht.path_le hneg st c (by rw [hst]; exact hcell)

/-- C15. Trace-back always terminates: after at most rows + columns steps (for any larger bound the result is the same), it has
followed, backwards, a path of single steps from the origin to the last cell. -/
theorem C15_traceback (m : Cube) (width h : Nat) (hw : 0 < width) (cells : List (List Score))
    (hc : fillTable m width h = .ok cells) :
    ∃ ss, (∀ fuel, h + (width - 1) ≤ fuel → traceback cells fuel h (width - 1) = .ok ss) ∧ ss.length ≤ h + (width - 1) ∧
      ∃ steps, endOf steps (0, 0) = (width - 1, h) ∧ visits steps (0, 0) = (ss.map (fun s => (s.x, s.y))).reverse := by
  obtain ⟨cells', h1, ht⟩ := fillTable_eq m width h hw
  rw [hc] at h1
  obtain rfl := Except.ok.inj h1
  obtain ⟨ss, _, h3, h4⟩ := traceback_ok ht (width - 1 + h) h (width - 1) (by omega) (by omega) (by omega)
  refine ⟨ss, fun fuel hf => traceback_of_trace h3 fuel (by omega), by omega, h3.steps ht⟩

/-- The entries of a cube and the scores of its table. -/
structure CubeSummary where
  rest : Nat
  entries : List (Int × Int)
  scores : List (List Int)
  deriving DecidableEq

/-- The aligner up to the table of the third witness (the hypotheses of C13, C14 and C15, one after the other). -/
def thirdTable (ws : List Witness) (width h : Nat) : Py CubeSummary := do
  let ti ← mkTokenIndex ws
  match ti.ws with
  | w0 :: w1 :: w :: post =>
    let s0 ← firstWitness ti w0
    let s ← alignWitnesses kahn none false ti [w1] s0
    let rk ← rankingOf kahn s.g
    let cube ← mkCube none ti w s.va rk
    let cells ← fillTable cube width h
    .ok ⟨post.length, cube.map Prod.fst, cells.map (List.map Score.g)⟩
  | _ => .error .indexError

/-- The third witness of `threeWitnesses`: its tokens "the", "white", "cat" match in the columns 0, 1 and 4. -/
example : thirdTable threeWitnesses 6 3 = .ok ⟨0, [(2, 4), (0, 0), (1, 1)],
    [[0, -1, -2, -3, -4, -5], [-1, 1, 0, -1, -2, -3], [-2, 0, 2, 1, 0, -1], [-3, -1, 1, 1, 0, 1]]⟩ := by decide +kernel

end CollateX
