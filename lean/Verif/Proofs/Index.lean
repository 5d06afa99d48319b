import Verif.Proofs.Prelude
import Verif.Proofs.Dict
import Verif.Model.TokenIndex
/-
The layout of the token array.
-/

namespace CollateX

/-- Offset of the `k`-th witness in the token array. -/
def off : List Witness → Nat → Nat
  | _, 0 => 0
  | [], _ + 1 => 0
  | w :: ws, k + 1 => w.tokens.length + 1 + off ws k

/-- The witnesses after indexing, when the first one starts at `pos`. -/
def indexed : Nat → List Witness → List Witness
  | _, [] => []
  | pos, w :: ws => { w with tokens := indexTokens w.sigil pos w.tokens } :: indexed (pos + w.tokens.length + 1) ws

/-- The token array, including the last marker. -/
def arrOf : Nat → Nat → List Witness → List Token
  | _, _, [] => []
  | idx, pos, w :: ws =>
    indexTokens w.sigil pos w.tokens ++ markerToken idx w.sigil :: arrOf (idx + 1) (pos + w.tokens.length + 1) ws

/-- The witness ranges. -/
def rangesOf : Nat → List Witness → Dict Str Range → Dict Str Range
  | _, [], d => d
  | pos, w :: ws, d => rangesOf (pos + w.tokens.length + 1) ws (dset d w.sigil (pos, pos + w.tokens.length))

def total : List Witness → Nat
  | [] => 0
  | w :: ws => w.tokens.length + 1 + total ws

/-- Witnesses that can be indexed: not empty, not absurdly long. -/
def Indexable (ws : List Witness) : Prop := ∀ w ∈ ws, w.tokens ≠ [] ∧ w.tokens.length < 1000000000

theorem addRange_ok {a n : Nat} (h1 : 0 < n) (h2 : n < 1000000000) : addRange a (a + n) = .ok (a, a + n) := by
  unfold addRange
  rw [if_pos]
  omega

theorem prepLoop_ok (ws : List Witness) (h : Indexable ws) (idx : Nat) (s : PrepSt) :
    prepLoop idx ws s = .ok
      { counter := s.counter + total ws
        ranges := rangesOf s.counter ws s.ranges
        arr := s.arr ++ arrOf idx s.counter ws
        ws := s.ws ++ indexed s.counter ws } := by
  induction ws generalizing idx s with
  | nil => simp [prepLoop, total, rangesOf, arrOf, indexed]
  | cons w ws ih =>
    have hw := h w (by simp)
    have hl : 0 < w.tokens.length := List.length_pos_iff.mpr hw.1
    simp only [prepLoop, addRange_ok hl hw.2, bind_ok]
    rw [ih (fun x hx => h x (by simp [hx]))]
    simp only [total, rangesOf, arrOf, indexed]
    simp [Nat.add_assoc, Nat.add_left_comm, Nat.add_comm]

@[simp] theorem indexTokens_length (s : Str) (pos : Nat) (ts : List Token) : (indexTokens s pos ts).length = ts.length := by
  induction ts generalizing pos with
  | nil => rfl
  | cons t ts ih => simp [indexTokens, ih]

theorem indexTokens_getElem? (s : Str) (pos : Nat) (ts : List Token) (i : Nat) :
    (indexTokens s pos ts)[i]? = ts[i]?.map (indexToken s (pos + i)) := by
  induction ts generalizing pos i with
  | nil => simp [indexTokens]
  | cons t ts ih =>
    cases i with
    | zero => simp [indexTokens]
    | succ i => simp only [indexTokens, List.getElem?_cons_succ, ih]; congr 2; omega

theorem arrOf_length (idx pos : Nat) (ws : List Witness) : (arrOf idx pos ws).length = total ws := by
  induction ws generalizing idx pos with
  | nil => rfl
  | cons w ws ih => simp [arrOf, total, ih]; omega

theorem indexed_length (pos : Nat) (ws : List Witness) : (indexed pos ws).length = ws.length := by
  induction ws generalizing pos with
  | nil => rfl
  | cons w ws ih => simp [indexed, ih]

theorem indexed_getElem? (pos : Nat) (ws : List Witness) (k : Nat) :
    (indexed pos ws)[k]? =
      ws[k]?.map (fun w => { w with tokens := indexTokens w.sigil (pos + off ws k) w.tokens }) := by
  induction ws generalizing pos k with
  | nil => simp [indexed]
  | cons w ws ih =>
    cases k with
    | zero => simp [indexed, off]
    | succ k =>
      simp only [indexed, List.getElem?_cons_succ, ih, off]
      congr 2
      funext x
      congr 2
      omega

theorem indexed_sigils (pos : Nat) (ws : List Witness) : (indexed pos ws).map Witness.sigil = ws.map Witness.sigil := by
  induction ws generalizing pos with
  | nil => rfl
  | cons w ws ih => simp [indexed, ih]

/-- The token `i` of witness `k`. -/
theorem arrOf_token (idx pos : Nat) (ws : List Witness) (k : Nat) (w : Witness) (hw : ws[k]? = some w) (i : Nat)
    (hi : i < w.tokens.length) :
    (arrOf idx pos ws)[off ws k + i]? = (indexTokens w.sigil (pos + off ws k) w.tokens)[i]? := by
  induction ws generalizing idx pos k with
  | nil => simp at hw
  | cons x ws ih =>
    cases k with
    | zero =>
      simp at hw; subst hw
      simp only [arrOf, off, Nat.zero_add, Nat.add_zero]
      rw [List.getElem?_append_left (by simpa using hi)]
    | succ k =>
      simp only [List.getElem?_cons_succ] at hw
      simp only [arrOf, off]
      rw [List.getElem?_append_right (by simp; omega)]
      have e : x.tokens.length + 1 + off ws k + i - (indexTokens x.sigil pos x.tokens).length = (off ws k + i) + 1 := by
        simp; omega
      rw [e, List.getElem?_cons_succ, ih _ _ k hw]
      congr 2
      omega

/-- The marker after witness `k`. -/
theorem arrOf_marker (idx pos : Nat) (ws : List Witness) (k : Nat) (w : Witness) (hw : ws[k]? = some w) :
    (arrOf idx pos ws)[off ws k + w.tokens.length]? = some (markerToken (idx + k) w.sigil) := by
  induction ws generalizing idx pos k with
  | nil => simp at hw
  | cons x ws ih =>
    cases k with
    | zero =>
      simp at hw; subst hw
      simp only [arrOf, off, Nat.zero_add]
      rw [List.getElem?_append_right (by simp)]
      simp
    | succ k =>
      simp only [List.getElem?_cons_succ] at hw
      simp only [arrOf, off]
      rw [List.getElem?_append_right (by simp; omega)]
      have e : x.tokens.length + 1 + off ws k + w.tokens.length - (indexTokens x.sigil pos x.tokens).length
          = (off ws k + w.tokens.length) + 1 := by
        simp; omega
      rw [e, List.getElem?_cons_succ, ih _ _ k hw]
      congr 2
      omega

/-- Every position belongs to a witness or is the marker after it. -/
theorem decode (ws : List Witness) (p : Nat) (hp : p < total ws) :
    ∃ k w, ws[k]? = some w ∧ off ws k ≤ p ∧ p ≤ off ws k + w.tokens.length := by
  induction ws generalizing p with
  | nil => simp [total] at hp
  | cons x ws ih =>
    by_cases h : p ≤ x.tokens.length
    · exact ⟨0, x, rfl, by simp [off], by simpa [off] using h⟩
    · simp only [total] at hp
      obtain ⟨k, w, h1, h2, h3⟩ := ih (p - (x.tokens.length + 1)) (by omega)
      refine ⟨k + 1, w, by simpa using h1, ?_, ?_⟩ <;> simp only [off] <;> omega

/-- Witness `k` ends before witness `l > k` starts. -/
theorem off_lt (ws : List Witness) (k l : Nat) (w : Witness) (hw : ws[k]? = some w) (hkl : k < l) (hl : l ≤ ws.length) :
    off ws k + w.tokens.length < off ws l := by
  induction ws generalizing k l with
  | nil => simp at hw
  | cons x ws ih =>
    obtain ⟨l, rfl⟩ : ∃ m, l = m + 1 := ⟨l - 1, by omega⟩
    cases k with
    | zero => simp at hw; subst hw; simp only [off]; omega
    | succ k =>
      simp only [List.getElem?_cons_succ] at hw
      simp only [off]
      have := ih k l hw (by omega) (by simpa using hl)
      omega

theorem off_length (ws : List Witness) : off ws ws.length = total ws := by
  induction ws with
  | nil => rfl
  | cons w ws ih => simp [off, total, ih]

theorem off_add_lt_total (ws : List Witness) (k : Nat) (w : Witness) (hw : ws[k]? = some w) :
    off ws k + w.tokens.length < total ws := by
  have hk : k < ws.length := by
    rcases List.getElem?_eq_some_iff.mp hw with ⟨h, -⟩; exact h
  rw [← off_length]
  exact off_lt ws k ws.length w hw hk (Nat.le_refl _)

/-- The decoding of a position is unique. -/
theorem decode_unique (ws : List Witness) (p k l : Nat) (w x : Witness) (hw : ws[k]? = some w) (hx : ws[l]? = some x)
    (h1 : off ws k ≤ p) (h2 : p ≤ off ws k + w.tokens.length) (h3 : off ws l ≤ p)
    (h4 : p ≤ off ws l + x.tokens.length) : k = l := by
  have hk : k < ws.length := (List.getElem?_eq_some_iff.mp hw).1
  have hl : l < ws.length := (List.getElem?_eq_some_iff.mp hx).1
  rcases Nat.lt_trichotomy k l with h | h | h
  · have := off_lt ws k l w hw h (by omega); omega
  · exact h
  · have := off_lt ws l k x hx h (by omega); omega

theorem dget_rangesOf (pos : Nat) (ws : List Witness) (d : Dict Str Range) (nd : (ws.map Witness.sigil).Nodup) (s : Str) :
    (∀ k w, ws[k]? = some w → w.sigil = s →
      dget (rangesOf pos ws d) s = some (pos + off ws k, pos + off ws k + w.tokens.length)) ∧
    (s ∉ ws.map Witness.sigil → dget (rangesOf pos ws d) s = dget d s) := by
  induction ws generalizing pos d with
  | nil => simp [rangesOf]
  | cons x ws ih =>
    simp only [List.map_cons, List.nodup_cons] at nd
    have ih' := ih (pos + x.tokens.length + 1) (dset d x.sigil (pos, pos + x.tokens.length)) nd.2
    constructor
    · intro k w hw hs
      cases k with
      | zero =>
        simp at hw; subst hw; subst hs
        simp only [rangesOf]
        rw [ih'.2 nd.1]
        simp [off]
      | succ k =>
        simp only [List.getElem?_cons_succ] at hw
        simp only [rangesOf]
        rw [ih'.1 k w hw hs]
        simp only [off]
        congr 2 <;> omega
    · intro hs
      simp only [List.map_cons, List.mem_cons, not_or] at hs
      simp only [rangesOf]
      rw [ih'.2 hs.2, dget_dset_ne _ _ (Ne.symm hs.1)]

theorem prepare_ok (ws : List Witness) (h : Indexable ws) (hne : ws ≠ []) :
    prepare ws = .ok
      { counter := total ws
        ranges := rangesOf 0 ws []
        arr := (arrOf 0 0 ws).dropLast
        ws := indexed 0 ws } := by
  unfold prepare
  rw [prepLoop_ok ws h]
  simp only [bind_ok, List.nil_append, Nat.zero_add]
  rw [if_neg]
  intro h0
  have := congrArg List.length h0
  rw [arrOf_length] at this
  cases ws with
  | nil => exact hne rfl
  | cons w ws => simp [total] at this

theorem dropLast_getElem? {α : Type} (l : List α) (i : Nat) (h : i + 1 < l.length) : l.dropLast[i]? = l[i]? := by
  rw [List.getElem?_dropLast, if_pos (by omega)]

end CollateX

namespace CollateX

theorem addRange_error {a n : Nat} (h : ¬ (0 < n ∧ n < 1000000000)) : addRange a (a + n) = .error .assertionError := by
  unfold addRange
  rw [if_neg]
  omega

theorem prepLoop_not_indexable (ws : List Witness) (h : ¬ Indexable ws) (idx : Nat) (s : PrepSt) :
    prepLoop idx ws s = .error .assertionError := by
  induction ws generalizing idx s with
  | nil => exact absurd (by simp [Indexable]) h
  | cons w ws ih =>
    by_cases hw : w.tokens ≠ [] ∧ w.tokens.length < 1000000000
    · have hl : 0 < w.tokens.length := List.length_pos_iff.mpr hw.1
      simp only [prepLoop, addRange_ok hl hw.2, bind_ok]
      apply ih
      intro h2
      apply h
      intro x hx
      rcases List.mem_cons.mp hx with rfl | hx
      · exact hw
      · exact h2 x hx
    · simp only [prepLoop]
      rw [addRange_error]
      · rfl
      · rw [List.length_pos_iff]; exact hw

theorem prepare_not_indexable (ws : List Witness) (h : ¬ Indexable ws) : prepare ws = .error .assertionError := by
  unfold prepare
  rw [prepLoop_not_indexable ws h]
  rfl

theorem prepare_nil : prepare [] = .error .indexError := rfl

/-- If indexing succeeds, the input was indexable. -/
theorem indexable_of_prepare {ws : List Witness} {st : PrepSt} (h : prepare ws = .ok st) : Indexable ws ∧ ws ≠ [] := by
  constructor
  · by_contra h2
    rw [prepare_not_indexable ws h2] at h
    cases h
  · rintro rfl
    rw [prepare_nil] at h
    cases h

theorem mkTokenIndex_prepare {ws : List Witness} {ti : TokenIndex} (h : mkTokenIndex ws = .ok ti) :
    Indexable ws ∧ ws ≠ [] ∧ ti.ws = indexed 0 ws ∧ ti.ranges = rangesOf 0 ws [] ∧
      ti.arr = (arrOf 0 0 ws).dropLast := by
  unfold mkTokenIndex at h
  obtain ⟨p, hp, h⟩ := bind_eq_ok.mp h
  obtain ⟨b, hb, h⟩ := bind_eq_ok.mp h
  obtain ⟨d, hd, h⟩ := bind_eq_ok.mp h
  injection h with h
  have hi := indexable_of_prepare hp
  rw [prepare_ok ws hi.1 hi.2] at hp
  injection hp with hp
  subst hp
  subst h
  exact ⟨hi.1, hi.2, rfl, rfl, rfl⟩

end CollateX
