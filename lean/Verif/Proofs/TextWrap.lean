import Verif.Spec.Display
import Verif.Proofs.Export
/-
`textwrap.fill` never runs out of fuel, keeps everything but white space, and its lines are short enough.
-/

namespace CollateX
open Spec

theorem squeeze_nil (cc : CharClass) : squeeze cc [] = [] := rfl

theorem squeeze_blank {cc : CharClass} {s : Str} (h : blankChunk cc s = true) : squeeze cc s = [] := by
  unfold blankChunk at h
  rw [List.all_eq_true] at h
  unfold squeeze
  rw [List.filter_eq_nil_iff]
  intro c hc
  simp [h c hc]

theorem squeeze_cons (cc : CharClass) (c : Char) (s : Str) :
    squeeze cc (c :: s) = (if cc.space c then [] else [c]) ++ squeeze cc s := by
  unfold squeeze
  rw [List.filter_cons]
  cases cc.space c <;> simp

theorem squeeze_replicate {cc : CharClass} {c : Char} (hc : cc.space c = true) (n : Nat) : squeeze cc (List.replicate n c) = [] := by
  unfold squeeze
  rw [List.filter_eq_nil_iff]
  intro d hd
  rw [List.eq_of_mem_replicate hd]
  simp [hc]

theorem squeeze_expandTabs {cc : CharClass} (ha : AsciiSpaces cc) (s : Str) : ∀ col, squeeze cc (expandTabs col s) = squeeze cc s := by
  induction s with
  | nil => intro col; rfl
  | cons c s ih =>
    intro col
    unfold expandTabs
    by_cases h : c = '\t'
    · subst h
      rw [if_pos rfl, squeeze_append, squeeze_replicate (ha ' ' (by simp)), ih, squeeze_cons, ha '\t' (by simp)]
      rfl
    · rw [if_neg h]
      split
      · rw [squeeze_cons, squeeze_cons, ih]
      · rw [squeeze_cons, squeeze_cons, ih]

theorem squeeze_blankOut {cc : CharClass} (ha : AsciiSpaces cc) (s : Str) : squeeze cc (s.map blankOut) = squeeze cc s := by
  induction s with
  | nil => rfl
  | cons c s ih =>
    rw [List.map_cons, squeeze_cons, squeeze_cons, ih]
    congr 1
    unfold blankOut
    split
    · rename_i h
      have hc : cc.space c = true := ha c (by simp; tauto)
      rw [ha ' ' (by simp), hc]
      rfl
    · rfl

theorem squeeze_munge {cc : CharClass} (ha : AsciiSpaces cc) (s : Str) : squeeze cc (munge s) = squeeze cc s := by
  unfold munge
  rw [squeeze_blankOut ha, squeeze_expandTabs ha]

theorem munge_no_newline (s : Str) : '\n' ∉ munge s := by
  unfold munge
  intro h
  obtain ⟨c, _, hc⟩ := List.mem_map.mp h
  unfold blankOut at hc
  split at hc
  · exact absurd hc (by decide)
  · rename_i h; exact h (by tauto)

/-- The chunks that fit, and the rest. -/
theorem fitChunks_eq (width : Nat) (l : List Str) : ∀ cur, (fitChunks width cur l).1 ++ (fitChunks width cur l).2 = l := by
  induction l with
  | nil => intro cur; rfl
  | cons c l ih =>
    intro cur
    unfold fitChunks
    split
    · simp only [List.cons_append]; rw [ih]
    · rfl

theorem fitChunks_length (width : Nat) (l : List Str) : ∀ cur, cur ≤ width → cur + (fitChunks width cur l).1.flatten.length ≤ width := by
  induction l with
  | nil => intro cur h; simpa [fitChunks] using h
  | cons c l ih =>
    intro cur h
    unfold fitChunks
    split
    · rename_i h1
      have := ih _ h1
      simp only [List.flatten_cons, List.length_append]
      omega
    · simpa using h

/-- If nothing fits, the first chunk is too long. -/
theorem fitChunks_none {width : Nat} {c : Str} {l : List Str} (h : (fitChunks width 0 (c :: l)).1 = []) : width < c.length := by
  unfold fitChunks at h
  split at h
  · exact absurd h (by simp)
  · omega

theorem dropBlank_squeeze (cc : CharClass) (l : List Str) : squeeze cc (dropBlank cc l).flatten = squeeze cc l.flatten := by
  unfold dropBlank
  cases h : l.getLast? with
  | none => rfl
  | some c =>
    dsimp only
    split
    · rename_i hb
      conv_rhs => rw [← List.dropLast_append_getLast? c h]
      rw [List.flatten_append, squeeze_append]
      simp [squeeze_blank hb]
    · rfl

theorem dropBlank_sublist (cc : CharClass) (l : List Str) : (dropBlank cc l).Sublist l := by
  unfold dropBlank
  cases l.getLast? with
  | none => exact List.Sublist.refl _
  | some c =>
    dsimp only
    split
    · exact List.dropLast_sublist _
    · exact List.Sublist.refl _

theorem flatten_sublist {l l' : List Str} (h : l.Sublist l') : ∀ d ∈ l.flatten, d ∈ l'.flatten := by
  intro d hd
  obtain ⟨x, hx, hd⟩ := List.mem_flatten.mp hd
  exact List.mem_flatten.mpr ⟨x, h.subset hx, hd⟩

theorem flatten_length_sublist {l l' : List Str} (h : l.Sublist l') : l.flatten.length ≤ l'.flatten.length := by
  induction h with
  | slnil => simp
  | cons a _ ih => simp only [List.flatten_cons, List.length_append]; omega
  | cons_cons a _ ih => simp only [List.flatten_cons, List.length_append]; omega

section
variable {cc : CharClass} {f : WrapFn} {width : Nat}

/-- What one round of the loop does. -/
theorem longWord_spec (hf : WrapSpec f) (p : List Str × List Str) (hl : p.1.flatten.length ≤ width) :
    (longWord f width p).1.flatten ++ (longWord f width p).2.flatten = p.1.flatten ++ p.2.flatten ∧
    (longWord f width p).1.flatten.length ≤ width ∧ (longWord f width p).2.length = p.2.length ∧
    (longWord f width p).2.flatten.length ≤ p.2.flatten.length ∧
    (p.1 = [] → 0 < width → (∃ c cs, p.2 = c :: cs ∧ width < c.length) → (longWord f width p).2.flatten.length < p.2.flatten.length) := by
  obtain ⟨a, b⟩ := p
  unfold longWord
  cases b with
  | nil => exact ⟨rfl, hl, rfl, le_rfl, by rintro _ _ ⟨c, cs, h, _⟩; cases h⟩
  | cons c cs =>
    dsimp only at hl ⊢
    split
    · rename_i hw
      have h1 := hf.cut_le c (width - a.flatten.length)
      refine ⟨?_, ?_, by simp, ?_, ?_⟩
      · simp only [List.flatten_append, List.flatten_cons, List.flatten_nil, List.append_nil, List.append_assoc]
        rw [← List.append_assoc (List.take _ c), List.take_append_drop]
      · simp only [List.flatten_append, List.flatten_cons, List.flatten_nil, List.append_nil, List.length_append, List.length_take]
        omega
      · simp only [List.flatten_cons, List.length_append, List.length_drop]; omega
      · intro ha hw0 _
        subst ha
        have h2 := hf.cut_pos c width hw0
        simp only [List.flatten_nil, List.length_nil, Nat.sub_zero, List.flatten_cons, List.length_append, List.length_drop]
        omega
    · refine ⟨rfl, hl, rfl, le_rfl, ?_⟩
      rintro _ _ ⟨c', cs', h, h2⟩
      simp only [List.cons.injEq] at h
      obtain ⟨rfl, rfl⟩ := h
      contradiction

theorem wrapChunks_ok (hf : WrapSpec f) (hw : 0 < width) (fuel : Nat) : ∀ (begun : Bool) (chunks : List Str),
    chunks.flatten.length + chunks.length ≤ fuel → ∃ ls, wrapChunks cc f width fuel begun chunks = .ok ls ∧
      squeeze cc ls.flatten = squeeze cc chunks.flatten ∧ (∀ l ∈ ls, l.length ≤ width) ∧ ∀ l ∈ ls, ∀ c ∈ l, c ∈ chunks.flatten := by
  induction fuel with
  | zero =>
    intro begun chunks h
    have : chunks = [] := List.length_eq_zero_iff.mp (by omega)
    subst this
    exact ⟨[], rfl, rfl, by simp, by simp⟩
  | succ fuel ih =>
    intro begun chunks h
    cases chunks with
    | nil => exact ⟨[], rfl, rfl, by simp, by simp⟩
    | cons c cs =>
      unfold wrapChunks
      dsimp only
      generalize hch : (if blankChunk cc c && begun then cs else c :: cs) = chunks
      have hsq : squeeze cc chunks.flatten = squeeze cc (c :: cs).flatten := by
        rw [← hch]
        split
        · rename_i hb
          simp only [Bool.and_eq_true] at hb
          rw [List.flatten_cons, squeeze_append, squeeze_blank hb.1]; rfl
        · rfl
      have hsub : chunks.Sublist (c :: cs) := by
        rw [← hch]
        split
        · exact List.sublist_cons_self _ _
        · exact List.Sublist.refl _
      have hmem : ∀ d ∈ chunks.flatten, d ∈ (c :: cs).flatten := flatten_sublist hsub
      have e1 := fitChunks_eq width chunks 0
      have e2 := fitChunks_length width chunks 0 (by omega)
      have hdec : chunks = c :: cs → (fitChunks width 0 chunks).1 = [] → ∃ x xs, (fitChunks width 0 chunks).2 = x :: xs ∧ width < x.length := by
        intro h1 h2
        rw [h1] at h2 e1 ⊢
        rw [h2] at e1
        exact ⟨c, cs, e1, fitChunks_none h2⟩
      have hdrop : chunks = c :: cs ∨ chunks = cs := by
        rw [← hch]
        split
        · exact Or.inr rfl
        · exact Or.inl rfl
      generalize fitChunks width 0 chunks = p at e1 e2 hdec ⊢
      obtain ⟨l1, l2, l3, l4, l5⟩ := longWord_spec (f := f) (width := width) hf p (by omega)
      generalize hq : longWord f width p = q at l1 l2 l3 l4 l5 ⊢
      have hlen : p.1.flatten.length + p.2.flatten.length = chunks.flatten.length := by
        rw [← e1, List.flatten_append, List.length_append]
      have hnum : p.1.length + p.2.length = chunks.length := by rw [← e1, List.length_append]
      have hfl : q.1.flatten ++ q.2.flatten = chunks.flatten := by rw [l1, ← List.flatten_append, e1]
      have hfuel : q.2.flatten.length + q.2.length ≤ fuel := by
        rcases hdrop with hd | hd
        · have hc := congrArg List.length hd
          have hc2 := congrArg (fun l => l.flatten.length) hd
          by_cases hp : p.1 = []
          · have := l5 hp hw (hdec hd hp)
            rw [hp] at hlen hnum
            simp only [List.flatten_nil, List.length_nil, Nat.zero_add] at hlen hnum
            omega
          · have : 0 < p.1.length := List.length_pos_iff.mpr hp
            omega
        · rw [hd] at hlen hnum
          simp only [List.flatten_cons, List.length_append, List.length_cons] at h
          omega
      have hsq2 : squeeze cc (dropBlank cc q.1).flatten ++ squeeze cc q.2.flatten = squeeze cc (c :: cs).flatten := by
        rw [dropBlank_squeeze, ← squeeze_append, hfl, hsq]
      have hin2 : ∀ d ∈ q.2.flatten, d ∈ (c :: cs).flatten := by
        intro d hd
        apply hmem
        rw [← hfl]
        exact List.mem_append_right _ hd
      split
      · rename_i hcur
        obtain ⟨ls, r1, r2, r3, r4⟩ := ih begun q.2 hfuel
        refine ⟨ls, r1, ?_, r3, fun l hl d hd => hin2 d (r4 l hl d hd)⟩
        rw [hcur] at hsq2
        rw [r2, ← hsq2]
        rfl
      · obtain ⟨ls, r1, r2, r3, r4⟩ := ih true q.2 hfuel
        refine ⟨(dropBlank cc q.1).flatten :: ls, by rw [r1]; rfl, ?_, ?_, ?_⟩
        · rw [List.flatten_cons, squeeze_append, r2, hsq2]
        · intro l hl
          rcases List.mem_cons.mp hl with rfl | hl
          · exact le_trans (flatten_length_sublist (dropBlank_sublist cc q.1)) l2
          · exact r3 l hl
        · intro l hl d hd
          rcases List.mem_cons.mp hl with rfl | hl
          · apply hmem
            rw [← hfl]
            exact List.mem_append_left _ (flatten_sublist (dropBlank_sublist cc q.1) d hd)
          · exact hin2 d (r4 l hl d hd)

end

theorem linesOf_ne (s : Str) : linesOf s ≠ [] := by
  cases s with
  | nil => simp [linesOf]
  | cons c s =>
    unfold linesOf
    split
    · simp
    · split <;> simp

theorem linesOf_append {l : Str} (h : '\n' ∉ l) (s : Str) : linesOf (l ++ '\n' :: s) = l :: linesOf s := by
  induction l with
  | nil => simp [linesOf]
  | cons c l ih =>
    have hc : c ≠ '\n' := fun e => h (by simp [e])
    rw [List.cons_append, linesOf, if_neg hc, ih (fun e => h (by simp [e]))]

theorem linesOf_single {l : Str} (h : '\n' ∉ l) : linesOf l = [l] := by
  induction l with
  | nil => simp [linesOf]
  | cons c l ih =>
    have hc : c ≠ '\n' := fun e => h (by simp [e])
    rw [linesOf, if_neg hc, ih (fun e => h (by simp [e]))]

theorem linesOf_joinLines {ls : List Str} (h : ∀ l ∈ ls, '\n' ∉ l) (hne : ls ≠ []) : linesOf (joinLines ls) = ls := by
  induction ls with
  | nil => exact absurd rfl hne
  | cons l ls ih =>
    cases ls with
    | nil => exact linesOf_single (h l (by simp))
    | cons m ls =>
      rw [joinLines, linesOf_append (h l (by simp)), ih (fun x hx => h x (by simp [hx])) (by simp)]
      simp

theorem squeeze_joinLines {cc : CharClass} (ha : AsciiSpaces cc) (ls : List Str) : squeeze cc (joinLines ls) = squeeze cc ls.flatten := by
  induction ls with
  | nil => rfl
  | cons l ls ih =>
    cases ls with
    | nil => simp [joinLines]
    | cons m ls =>
      rw [joinLines, squeeze_append, squeeze_cons, ha '\n' (by simp), ih, if_pos rfl, List.nil_append, ← squeeze_append]
      · rfl
      · simp

/-- The wrapped text, and its characters. -/
theorem fill20_ok {cc : CharClass} {f : WrapFn} (hf : WrapSpec f) (ha : AsciiSpaces cc) (s : Str) :
    ∃ r, fill20 cc f s = .ok r ∧ Wrapped cc s r ∧ ∀ c ∈ r, c = '\n' ∨ c = ' ' ∨ c ∈ s := by
  obtain ⟨ls, h1, h2, h3, h4⟩ := wrapChunks_ok (cc := cc) (f := f) (width := 20) hf (by omega) _ false (f.split (munge s)) le_rfl
  rw [hf.whole] at h2 h4
  have hnl : ∀ l ∈ ls, '\n' ∉ l := fun l hl hn => munge_no_newline s (h4 l hl _ hn)
  refine ⟨joinLines ls, by unfold fill20 wrapText; rw [h1]; rfl, ⟨?_, ?_⟩, ?_⟩
  · rw [squeeze_joinLines ha, h2, squeeze_munge ha]
  · intro l hl
    by_cases hne : ls = []
    · subst hne
      simp [joinLines, linesOf] at hl
      subst hl
      simp
    · rw [linesOf_joinLines hnl hne] at hl
      exact h3 l hl
  · have hm : ∀ c ∈ munge s, c = ' ' ∨ c ∈ s := by
      intro c hc
      unfold munge at hc
      obtain ⟨d, hd, rfl⟩ := List.mem_map.mp hc
      unfold blankOut
      split
      · exact Or.inl rfl
      · have key : ∀ (s : Str) (col : Nat), ∀ d ∈ expandTabs col s, d = ' ' ∨ d ∈ s := by
          intro s
          induction s with
          | nil => intro col d hd; exact absurd hd (by simp [expandTabs])
          | cons c s ih =>
            intro col d hd
            unfold expandTabs at hd
            split at hd
            · rcases List.mem_append.mp hd with hd | hd
              · exact Or.inl (List.eq_of_mem_replicate hd)
              · rcases ih _ d hd with h | h
                · exact Or.inl h
                · exact Or.inr (by simp [h])
            · split at hd <;>
              · rcases List.mem_cons.mp hd with rfl | hd
                · exact Or.inr (by simp)
                · rcases ih _ d hd with h | h
                  · exact Or.inl h
                  · exact Or.inr (by simp [h])
        exact key s 0 d hd
    have key : ∀ ls : List Str, (∀ l ∈ ls, ∀ c ∈ l, c = ' ' ∨ c ∈ s) → ∀ c ∈ joinLines ls, c = '\n' ∨ c = ' ' ∨ c ∈ s := by
      intro ls
      induction ls with
      | nil => intro _ c hc; exact absurd hc (by simp [joinLines])
      | cons l ls ih =>
        intro h c hc
        cases ls with
        | nil => exact Or.inr (h l (by simp) c hc)
        | cons m ls =>
          rw [joinLines] at hc
          · rcases List.mem_append.mp hc with hc | hc
            · exact Or.inr (h l (by simp) c hc)
            · rcases List.mem_cons.mp hc with rfl | hc
              · exact Or.inl rfl
              · exact ih (fun x hx => h x (by simp [hx])) c hc
          · simp
    exact key ls (fun l hl c hc => hm c (h4 l hl c hc))

theorem splitBlankRuns_flatten (s : Str) : (splitBlankRuns s).flatten = s := by
  induction s with
  | nil => rfl
  | cons c s ih =>
    unfold splitBlankRuns
    cases h : splitBlankRuns s with
    | nil => rw [h] at ih; simp at ih; subst ih; rfl
    | cons w ws =>
      rw [h] at ih
      dsimp only
      split <;> simpa using ih

theorem simpleWrap_spec : WrapSpec simpleWrap := by
  refine ⟨splitBlankRuns_flatten, ?_, fun _ _ => le_rfl, fun _ _ h => h⟩
  intro s
  show ∀ c ∈ splitBlankRuns s, c ≠ []
  induction s with
  | nil => intro c hc; exact absurd hc (by simp [splitBlankRuns])
  | cons a s ih =>
    intro c hc
    unfold splitBlankRuns at hc
    cases h : splitBlankRuns s with
    | nil => rw [h] at hc; simp at hc; subst hc; simp
    | cons w ws =>
      rw [h] at hc ih
      dsimp only at hc
      split at hc
      · rcases List.mem_cons.mp hc with rfl | hc
        · simp
        · exact ih c (by simp [hc])
      · rcases List.mem_cons.mp hc with rfl | hc
        · simp
        · exact ih c hc

theorem asciiClass_spaces : AsciiSpaces asciiClass := by
  unfold AsciiSpaces
  decide

end CollateX
