import Verif.Model.SuffixText
import Verif.Proofs.Transpositions
import Verif.Props.SuffixArray
/-
The word tokeniser of the suffix array and the text it gives back: the specification and the lemmas for C86.
-/

namespace CollateX

/-- How a text is divided into tokens: spaces divide and are no tokens, a line break is a token of its own, and all else is words, as long
as possible. -/
inductive Spec.Divided : Str → List Str → Prop
  | nil : Divided [] []
  | space {s : Str} {ts : List Str} : Divided s ts → Divided (' ' :: s) ts
  | newline {s : Str} {ts : List Str} : Divided s ts → Divided ('\n' :: s) (['\n'] :: ts)
  | word {w s : Str} {ts : List Str} : w ≠ [] → (∀ c ∈ w, c ≠ ' ' ∧ c ≠ '\n') → (∀ c ∈ s.head?, c = ' ' ∨ c = '\n') → Divided s ts →
      Divided (w ++ s) (w :: ts)

open Spec

/-! ### `replace` and `split` -/

/-- Replacing a single character. -/
theorem pyReplaceF_char (a : Char) (new : Str) : ∀ (n : Nat) (s : Str), s.length ≤ n →
    pyReplaceF [a] new n s = s.flatMap (fun c => if c = a then new else [c])
  | 0, s, h => by
    have : s = [] := List.length_eq_zero_iff.mp (by omega)
    subst this
    rfl
  | n + 1, [], _ => rfl
  | n + 1, c :: s, h => by
    have hl : s.length ≤ n := by simpa using h
    unfold pyReplaceF
    by_cases hc : c = a
    · subst hc
      have : List.isPrefixOf [c] (c :: s) = true := by simp [List.isPrefixOf]
      rw [if_pos this]
      simp [pyReplaceF_char c new n s hl]
    · have : ¬ List.isPrefixOf [a] (c :: s) = true := by simp [List.isPrefixOf, Ne.symm hc]
      rw [if_neg this]
      simp [hc, pyReplaceF_char a new n s hl]

theorem pyReplace_char (a : Char) (new s : Str) : pyReplace [a] new s = s.flatMap (fun c => if c = a then new else [c]) :=
  pyReplaceF_char a new _ s (Nat.le_refl _)

/-- Fuel does not matter. -/
theorem pyReplaceF_fuel (old new : Str) (ho : old ≠ []) : ∀ (n m : Nat) (s : Str), s.length ≤ n → s.length ≤ m →
    pyReplaceF old new n s = pyReplaceF old new m s
  | 0, m, s, h, _ => by
    have : s = [] := List.length_eq_zero_iff.mp (by omega)
    subst this
    cases m <;> rfl
  | n + 1, 0, s, _, h => by
    have : s = [] := List.length_eq_zero_iff.mp (by omega)
    subst this
    rfl
  | n + 1, m + 1, [], _, _ => rfl
  | n + 1, m + 1, c :: s, h1, h2 => by
    have hl : 0 < old.length := List.length_pos_iff.mpr ho
    unfold pyReplaceF
    rw [pyReplaceF_fuel old new ho n m s (by simpa using h1) (by simpa using h2),
      pyReplaceF_fuel old new ho n m ((c :: s).drop old.length) (by simp only [List.length_drop, List.length_cons] at *; omega)
        (by simp only [List.length_drop, List.length_cons] at *; omega)]

section
variable {a b : Char} {new : Str}

theorem pyReplace_nil (old new : Str) : pyReplace old new [] = [] := rfl

/-- A pair is replaced. -/
theorem pyReplace_hit (s : Str) : pyReplace [a, b] new (a :: b :: s) = new ++ pyReplace [a, b] new s := by
  unfold pyReplace
  simp only [List.length_cons]
  rw [pyReplaceF]
  have : List.isPrefixOf [a, b] (a :: b :: s) = true := by simp [List.isPrefixOf]
  rw [if_pos this]
  simp only [List.length_cons, List.length_nil, List.drop_succ_cons, List.drop_zero]
  rw [pyReplaceF_fuel [a, b] new (by simp) (s.length + 1) s.length s (by omega) (by omega)]

/-- Any other character stays. -/
theorem pyReplace_miss {c : Char} (s : Str) (h : c = a → s.head? ≠ some b) : pyReplace [a, b] new (c :: s) = c :: pyReplace [a, b] new s := by
  unfold pyReplace
  simp only [List.length_cons]
  rw [pyReplaceF]
  have : ¬ List.isPrefixOf [a, b] (c :: s) = true := by
    intro hp
    cases s with
    | nil => simp [List.isPrefixOf] at hp
    | cons d s =>
      simp only [List.isPrefixOf, beq_iff_eq, Bool.and_eq_true] at hp
      exact h hp.1.symm (by rw [← hp.2.1]; rfl)
  rw [if_neg this]

theorem pyReplace_word : ∀ (w s : Str), (∀ c ∈ w, c ≠ a) → pyReplace [a, b] new (w ++ s) = w ++ pyReplace [a, b] new s
  | [], _, _ => rfl
  | c :: w, s, h => by
    rw [List.cons_append, pyReplace_miss _ (fun e => absurd e (h c (by simp))), pyReplace_word w s (fun c hc => h c (by simp [hc]))]
    rfl

end

/-- The parts between spaces that are not empty. -/
def spacedWords (s : Str) : List Str := (pySplit ' ' s).filter (fun t => decide (t ≠ []))

theorem pySplit_ne (c : Char) : ∀ s : Str, pySplit c s ≠ []
  | [] => by simp [pySplit]
  | x :: s => by
    unfold pySplit
    split
    · simp
    · split <;> simp

theorem spacedWords_space (s : Str) : spacedWords (' ' :: s) = spacedWords s := by simp [spacedWords, pySplit]

theorem pySplit_word : ∀ (w : Str) (ps : List Str) (s p : Str), (∀ c ∈ w, c ≠ ' ') → pySplit ' ' s = p :: ps →
    pySplit ' ' (w ++ s) = (w ++ p) :: ps
  | [], _, _, _, _, h => h
  | c :: w, ps, s, p, hw, h => by
    rw [List.cons_append]
    unfold pySplit
    rw [if_neg (hw c (by simp)), pySplit_word w ps s p (fun c hc => hw c (by simp [hc])) h]
    rfl

theorem spacedWords_last {w : Str} (h : w ≠ []) (hw : ∀ c ∈ w, c ≠ ' ') : spacedWords w = [w] := by
  have := pySplit_word w [] [] [] hw rfl
  rw [List.append_nil] at this
  simp [spacedWords, this, h]

theorem spacedWords_word {w : Str} (s : Str) (h : w ≠ []) (hw : ∀ c ∈ w, c ≠ ' ') : spacedWords (w ++ ' ' :: s) = w :: spacedWords s := by
  have := pySplit_word w (pySplit ' ' s) (' ' :: s) [] hw (by simp [pySplit])
  rw [List.append_nil] at this
  simp [spacedWords, this, h]

/-- The text with spaces around line breaks. -/
def spaced (s : Str) : Str := s.flatMap (fun c => if c = '\n' then [' ', '\n', ' '] else [c])

theorem spaced_word {w : Str} (hw : ∀ c ∈ w, c ≠ ' ' ∧ c ≠ '\n') (s : Str) : spaced (w ++ s) = w ++ spaced s := by
  induction w with
  | nil => rfl
  | cons c w ih =>
    have := ih (fun c hc => hw c (by simp [hc]))
    unfold spaced at this ⊢
    simp [(hw c (by simp)).2, this]

theorem divided_words {s : Str} {ts : List Str} (h : Divided s ts) : spacedWords (spaced s) = ts := by
  induction h with
  | nil => rfl
  | space _ ih =>
    rw [show ∀ s, spaced (' ' :: s) = ' ' :: spaced s from fun _ => rfl, spacedWords_space, ih]
  | @newline s ts _ ih =>
    rw [show spaced ('\n' :: s) = ' ' :: (['\n'] ++ ' ' :: spaced s) from rfl, spacedWords_space, spacedWords_word _ (by simp) (by simp), ih]
  | @word w s ts h1 h2 h3 _ ih =>
    rw [spaced_word h2]
    have hw : ∀ c ∈ w, c ≠ ' ' := fun c hc => (h2 c hc).1
    match s, h3, ih with
    | [], _, ih =>
      rw [show spaced [] = [] from rfl, List.append_nil, spacedWords_last h1 hw, ← ih]
      rfl
    | c :: s, h3, ih =>
      rcases h3 c rfl with rfl | rfl
      · rw [show spaced (' ' :: s) = ' ' :: spaced s from rfl] at ih ⊢
        rw [spacedWords_word _ h1 hw, ← ih, spacedWords_space]
      · rw [show spaced ('\n' :: s) = ' ' :: '\n' :: ' ' :: spaced s from rfl] at ih ⊢
        rw [spacedWords_word _ h1 hw, ← ih, spacedWords_space]

theorem divided_exists : ∀ (n : Nat) (s : Str), s.length ≤ n → ∃ ts, Divided s ts
  | 0, s, h => by
    have : s = [] := List.length_eq_zero_iff.mp (by omega)
    subst this
    exact ⟨[], .nil⟩
  | n + 1, [], _ => ⟨[], .nil⟩
  | n + 1, c :: s, h => by
    by_cases h1 : c = ' '
    · subst h1
      obtain ⟨ts, ht⟩ := divided_exists n s (by simpa using h)
      exact ⟨ts, .space ht⟩
    by_cases h2 : c = '\n'
    · subst h2
      obtain ⟨ts, ht⟩ := divided_exists n s (by simpa using h)
      exact ⟨_, .newline ht⟩
    let q : Char → Bool := fun c => decide (c ≠ ' ' ∧ c ≠ '\n')
    have hq : q c = true := by simp [q, h1, h2]
    have hlen : ((c :: s).dropWhile q).length ≤ n := by
      rw [List.dropWhile_cons_of_pos hq]
      have := (List.dropWhile_sublist (l := s) q).length_le
      simp only [List.length_cons] at h
      omega
    obtain ⟨ts, ht⟩ := divided_exists n _ hlen
    have key := Divided.word (w := (c :: s).takeWhile q) (s := (c :: s).dropWhile q) (ts := ts)
      (by rw [List.takeWhile_cons_of_pos hq]; simp)
      (by
        intro d hd
        have : ∀ (l : Str), d ∈ l.takeWhile q → q d = true := by
          intro l
          induction l with
          | nil => intro h; cases h
          | cons x l ih =>
            intro h
            by_cases hx : q x = true
            · rw [List.takeWhile_cons_of_pos hx] at h
              rcases List.mem_cons.mp h with rfl | h
              · exact hx
              · exact ih h
            · rw [List.takeWhile_cons_of_neg hx] at h; cases h
        simpa [q] using this _ hd)
      (by
        intro d hd
        have : ∀ (l : Str), d ∈ (l.dropWhile q).head? → q d = false := by
          intro l
          induction l with
          | nil => intro h; cases h
          | cons x l ih =>
            intro h
            by_cases hx : q x = true
            · rw [List.dropWhile_cons_of_pos hx] at h
              exact ih h
            · rw [List.dropWhile_cons_of_neg hx] at h
              simp only [List.head?_cons, Option.mem_def, Option.some.injEq] at h
              subst h
              simpa using hx
        have hd' := this _ hd
        by_contra hcon
        rw [not_or] at hcon
        simp [q, hcon] at hd') ht
    rw [List.takeWhile_append_dropWhile] at key
    exact ⟨_, key⟩

theorem saTokenize_word (s : Str) : saTokenize .word s = .ok (spacedWords (spaced s)) := by
  show Except.ok ((pySplit ' ' (pyReplace ['\n'] [' ', '\n', ' '] s)).filter (fun t => decide (t ≠ []))) = _
  rw [pyReplace_char]
  rfl

theorem saTokenize_iff (s : Str) (ts : List Str) : saTokenize .word s = .ok ts ↔ Divided s ts := by
  rw [saTokenize_word]
  constructor
  · intro h
    obtain ⟨us, hu⟩ := divided_exists s.length s (Nat.le_refl _)
    rw [divided_words hu] at h
    obtain rfl := Except.ok.inj h
    exact hu
  · intro h
    rw [divided_words h]

/-- What can be a token: a line break, or a word without spaces and line breaks. -/
def Spec.IsTok (t : Str) : Prop := t = ['\n'] ∨ (t ≠ [] ∧ ∀ c ∈ t, c ≠ ' ' ∧ c ≠ '\n')

theorem divided_isTok {s : Str} {ts : List Str} (h : Divided s ts) : ∀ t ∈ ts, IsTok t := by
  induction h with
  | nil => simp
  | space _ ih => exact ih
  | newline _ ih =>
    intro t ht
    rcases List.mem_cons.mp ht with rfl | ht
    · exact Or.inl rfl
    · exact ih t ht
  | word h1 h2 _ _ ih =>
    intro t ht
    rcases List.mem_cons.mp ht with rfl | ht
    · exact Or.inr ⟨h1, h2⟩
    · exact ih t ht

/-- Tokens with one space between two words, and none at line breaks. -/
def rendered : List Str → Str
  | [] => []
  | [t] => t
  | t :: u :: l => t ++ (if t = ['\n'] ∨ u = ['\n'] then [] else [' ']) ++ rendered (u :: l)

/-- Tokens with one space in between, but none before line breaks. -/
def rendered1 : List Str → Str
  | [] => []
  | [t] => t
  | t :: u :: l => t ++ (if u = ['\n'] then [] else [' ']) ++ rendered1 (u :: l)

theorem Spec.IsTok.no_space {t : Str} (h : IsTok t) : ∀ c ∈ t, c ≠ ' ' := by
  rcases h with rfl | ⟨_, h⟩
  · simp
  · exact fun c hc => (h c hc).1

theorem Spec.IsTok.ne {t : Str} (h : IsTok t) : t ≠ [] := by
  rcases h with rfl | ⟨h, _⟩
  · simp
  · exact h

theorem Spec.IsTok.head {t : Str} (h : IsTok t) (s : Str) : (t ++ s).head? = some '\n' ↔ t = ['\n'] := by
  rcases h with rfl | ⟨h1, h2⟩
  · simp
  · match t, h1, h2 with
    | c :: t, _, h2 =>
      have := (h2 c (by simp)).2
      simp only [List.cons_append, List.head?_cons, Option.some.injEq]
      constructor
      · exact fun e => absurd e this
      · intro e
        injection e

theorem rendered1_head {u : Str} (h : IsTok u) (l : List Str) : (rendered1 (u :: l)).head? = some '\n' ↔ u = ['\n'] := by
  cases l with
  | nil => have := h.head []; rwa [List.append_nil] at this
  | cons v l => rw [rendered1, List.append_assoc]; exact h.head _

theorem replace_first : ∀ ts : List Str, (∀ t ∈ ts, IsTok t) → pyReplace [' ', '\n'] ['\n'] (pyJoin [' '] ts) = rendered1 ts
  | [], _ => rfl
  | [t], h => by
    have := pyReplace_word (a := ' ') (b := '\n') (new := ['\n']) t [] (h t (by simp)).no_space
    rw [List.append_nil, pyReplace_nil, List.append_nil] at this
    exact this
  | t :: u :: l, h => by
    have ih := replace_first (u :: l) (fun t ht => h t (by simp [ht]))
    have hu : IsTok u := h u (by simp)
    rw [pyJoin, List.append_assoc, pyReplace_word _ _ (h t (by simp)).no_space, rendered1, List.append_assoc]
    congr 1
    by_cases hn : u = ['\n']
    · subst hn
      rw [if_pos rfl]
      have hj : pyJoin [' '] (['\n'] :: l) = '\n' :: (pyJoin [' '] (['\n'] :: l)).tail := by cases l <;> rfl
      rw [← ih, hj]
      show pyReplace [' ', '\n'] ['\n'] (' ' :: '\n' :: _) = _
      rw [pyReplace_hit, List.nil_append, pyReplace_miss _ (by simp)]
      rfl
    · rw [if_neg hn]
      show pyReplace [' ', '\n'] ['\n'] (' ' :: pyJoin [' '] (u :: l)) = _
      rw [pyReplace_miss _ (fun _ hd => hn ?_), ih]
      · rfl
      · cases l with
        | nil => have := hu.head []; rw [List.append_nil] at this; exact this.mp hd
        | cons v l => rw [pyJoin, List.append_assoc] at hd; exact (hu.head _).mp hd

theorem replace_second : ∀ ts : List Str, (∀ t ∈ ts, IsTok t) → pyReplace ['\n', ' '] ['\n'] (rendered1 ts) = rendered ts
  | [], _ => rfl
  | [t], h => by
    rcases h t (by simp) with rfl | ⟨_, h2⟩
    · decide
    · have := pyReplace_word (a := '\n') (b := ' ') (new := ['\n']) t [] (fun c hc => (h2 c hc).2)
      rw [List.append_nil, pyReplace_nil, List.append_nil] at this
      exact this
  | t :: u :: l, h => by
    have ih := replace_second (u :: l) (fun t ht => h t (by simp [ht]))
    have hu : IsTok u := h u (by simp)
    have hus : (rendered1 (u :: l)).head? ≠ some ' ' := by
      have : ∀ s : Str, (u ++ s).head? ≠ some ' ' := by
        intro s
        match u, hu.ne, hu.no_space with
        | c :: u, _, hc =>
          intro e
          simp only [List.cons_append, List.head?_cons, Option.some.injEq] at e
          exact hc c (by simp) e
      cases l with
      | nil => have := this []; rwa [List.append_nil] at this
      | cons v l => rw [rendered1, List.append_assoc]; exact this _
    rw [rendered1, rendered]
    rcases h t (by simp) with rfl | ⟨h1, h2⟩
    · rw [if_pos (Or.inl rfl)]
      by_cases hn : u = ['\n']
      · rw [if_pos hn]
        show pyReplace ['\n', ' '] ['\n'] ('\n' :: rendered1 (u :: l)) = _
        rw [pyReplace_miss _ (fun _ => hus), ih]
        rfl
      · rw [if_neg hn]
        show pyReplace ['\n', ' '] ['\n'] ('\n' :: ' ' :: rendered1 (u :: l)) = _
        rw [pyReplace_hit, ih]
        rfl
    · have ht : t ≠ ['\n'] := by
        rintro rfl
        exact (h2 '\n' (by simp)).2 rfl
      rw [List.append_assoc, pyReplace_word _ _ (fun c hc => (h2 c hc).2), List.append_assoc]
      congr 1
      by_cases hn : u = ['\n']
      · rw [if_pos hn, if_pos (Or.inr hn), List.nil_append, List.nil_append, ih]
      · rw [if_neg hn, if_neg (by simp [ht, hn])]
        show pyReplace ['\n', ' '] ['\n'] (' ' :: rendered1 (u :: l)) = _
        rw [pyReplace_miss _ (by simp), ih]
        rfl

theorem rendered_divided : ∀ ts : List Str, (∀ t ∈ ts, IsTok t) → Divided (rendered ts) ts
  | [], _ => .nil
  | [t], h => by
    rcases h t (by simp) with rfl | ⟨h1, h2⟩
    · exact .newline .nil
    · have := Divided.word h1 h2 (s := []) (by simp) .nil
      rwa [List.append_nil] at this
  | t :: u :: l, h => by
    have ih := rendered_divided (u :: l) (fun t ht => h t (by simp [ht]))
    rw [rendered, List.append_assoc]
    rcases h t (by simp) with rfl | ⟨h1, h2⟩
    · rw [if_pos (Or.inl rfl)]
      exact .newline ih
    · have ht : t ≠ ['\n'] := by
        rintro rfl
        exact (h2 '\n' (by simp)).2 rfl
      by_cases hn : u = ['\n']
      · rw [if_pos (Or.inr hn)]
        refine .word h1 h2 ?_ ih
        intro c hc
        subst hn
        right
        cases l with
        | nil => simpa [rendered] using hc.symm
        | cons v l => rw [rendered] at hc; simpa using hc.symm
      · rw [if_neg (by simp [ht, hn])]
        exact .word h1 h2 (by simp) (.space ih)

theorem vocAt_tokId {text : List Str} {x : Str} (h : x ∈ text) : vocAt (sortedSet text) (tokId (sortedSet text) x) = .ok x := by
  have hm : x ∈ sortedSet text := mem_sortedSet.mpr h
  show lgetE (sortedSet text) ((sortedSet text).idxOf x) = _
  rw [lgetE_eq_ok, List.getElem?_eq_getElem (List.idxOf_lt_length_of_mem hm)]
  rw [List.getElem_idxOf]

theorem reprString_eq (unit : SAUnit) (ts : List Str) (offset length : Nat) :
    reprString unit (mkSuffixArray ts) offset length = .ok (match unit with
      | .word => pyReplace ['\n', ' '] ['\n'] (pyReplace [' ', '\n'] ['\n'] (pyJoin [' '] ((ts.drop offset).take length)))
      | _ => pyJoin [] ((ts.drop offset).take length)) := by
  have hstr : (mkSuffixArray ts).string = ts.map (tokId (sortedSet ts)) := rfl
  have hvoc : (mkSuffixArray ts).voc = sortedSet ts := rfl
  have hids : (((mkSuffixArray ts).string.drop offset).take (min length ((mkSuffixArray ts).string.length - offset))).take
      (min length ((mkSuffixArray ts).string.length - offset)) = ((ts.drop offset).take length).map (tokId (sortedSet ts)) := by
    rw [List.take_take, Nat.min_self, hstr, List.length_map, ← List.map_drop, ← List.map_take]
    congr 1
    rw [← List.length_drop]
    rcases Nat.le_total length (ts.drop offset).length with hl | hl
    · rw [Nat.min_eq_left hl]
    · rw [Nat.min_eq_right hl, List.take_of_length_le (Nat.le_refl _), List.take_of_length_le hl]
  have hmap : ∀ l : List Str, (∀ x ∈ l, x ∈ ts) → mapE (vocAt (sortedSet ts)) (l.map (tokId (sortedSet ts))) = .ok l := by
    intro l
    induction l with
    | nil => intro _; rfl
    | cons x l ih =>
      intro h
      rw [List.map_cons, mapE, vocAt_tokId (h x (by simp)), bind_ok, ih (fun y hy => h y (by simp [hy])), bind_ok]
  unfold reprString reprIds
  simp only
  rw [hids, hvoc, hmap _ (fun x hx => List.mem_of_mem_drop (List.mem_of_mem_take hx)), bind_ok]
  cases unit <;> rfl

/-- Texts in which every space is between two characters of words. -/
def Spec.Tidy (s : Str) : Prop :=
  ∀ i, s[i]? = some ' ' → 0 < i ∧ ∃ a b, s[i - 1]? = some a ∧ s[i + 1]? = some b ∧ (a ≠ ' ' ∧ a ≠ '\n') ∧ b ≠ ' ' ∧ b ≠ '\n'

theorem Spec.Tidy.tail {p s : Str} (h : Tidy (p ++ s)) (hs : s.head? ≠ some ' ') : Tidy s := by
  intro i hi
  have h0 : 0 < i := by
    rcases Nat.eq_zero_or_pos i with rfl | h0
    · rw [List.head?_eq_getElem?] at hs
      exact absurd hi hs
    · exact h0
  have hp : (p ++ s)[p.length + i]? = some ' ' := by
    rw [List.getElem?_append_right (by omega)]
    rwa [Nat.add_sub_cancel_left]
  obtain ⟨_, a, b, ha, hb, h1, h2⟩ := h _ hp
  rw [List.getElem?_append_right (by omega)] at ha hb
  rw [show p.length + i - 1 - p.length = i - 1 by omega] at ha
  rw [show p.length + i + 1 - p.length = i + 1 by omega] at hb
  exact ⟨h0, a, b, ha, hb, h1, h2⟩

theorem Spec.Tidy.head {s : Str} (h : Tidy s) : s.head? ≠ some ' ' := by
  intro e
  rw [List.head?_eq_getElem?] at e
  exact absurd (h 0 e).1 (by omega)

/-- What follows a space in a tidy text. -/
theorem Spec.Tidy.after {p s : Str} (h : Tidy (p ++ ' ' :: s)) : ∃ b, s.head? = some b ∧ b ≠ ' ' ∧ b ≠ '\n' := by
  have hp : (p ++ ' ' :: s)[p.length]? = some ' ' := by
    rw [List.getElem?_append_right (Nat.le_refl _), Nat.sub_self]
    rfl
  obtain ⟨_, a, b, _, hb, _, h2⟩ := h _ hp
  rw [List.getElem?_append_right (by omega), show p.length + 1 - p.length = 1 by omega] at hb
  refine ⟨b, ?_, h2⟩
  rw [List.head?_eq_getElem?]
  exact hb

theorem Spec.Divided.first {b : Char} {s : Str} {ts : List Str} (h : Divided (b :: s) ts) (h1 : b ≠ ' ') (h2 : b ≠ '\n') :
    ∃ t l, ts = t :: l ∧ t ≠ ['\n'] := by
  generalize hs : b :: s = r at h
  cases h with
  | nil => cases hs
  | space _ => injection hs with e _; exact absurd e h1
  | newline _ => injection hs with e _; exact absurd e h2
  | word _ hw _ _ =>
    refine ⟨_, _, rfl, ?_⟩
    rintro rfl
    exact (hw '\n' (by simp)).2 rfl

theorem rendered_cons {t : Str} {l : List Str} (h : l = [] ∨ t = ['\n'] ∨ ∃ m, l = ['\n'] :: m) : rendered (t :: l) = t ++ rendered l := by
  cases l with
  | nil => simp [rendered]
  | cons u l =>
    rw [rendered, if_pos, List.append_nil]
    rcases h with h | h | ⟨m, h⟩
    · cases h
    · exact Or.inl h
    · injection h with h _; exact Or.inr h

theorem rendered_tidy_eq {s : Str} {ts : List Str} (h : Divided s ts) :
    (Tidy s → rendered ts = s) ∧ (∀ s', s = ' ' :: s' → Tidy s' → rendered ts = s') := by
  induction h with
  | nil => exact ⟨fun _ => rfl, by simp⟩
  | space _ ih =>
    refine ⟨fun h => absurd rfl h.head, ?_⟩
    intro s' e h
    injection e with _ e
    subst e
    exact ih.1 h
  | @newline s ts hd ih =>
    refine ⟨fun h => ?_, by simp⟩
    rw [rendered_cons (Or.inr (Or.inl rfl))]
    rw [ih.1]
    · rfl
    · refine Tidy.tail (p := ['\n']) h ?_
      intro e
      match s, e with
      | c :: s, e =>
        simp only [List.head?_cons, Option.some.injEq] at e
        subst e
        obtain ⟨_, a, b, ha, _, h1, _⟩ := h 1 rfl
        simp only [Nat.sub_self, List.getElem?_cons_zero, Option.some.injEq] at ha
        exact h1.2 ha.symm
  | @word w s ts h1 h2 h3 hd ih =>
    constructor
    · intro h
      match s, h3, hd, ih, h with
      | [], _, hd, ih, _ =>
        cases ts with
        | nil => simp [rendered]
        | cons t l =>
          have := (saTokenize_iff _ _).mpr hd
          simp [saTokenize, pyReplace, pyReplaceF, pySplit] at this
      | c :: s, h3, hd, ih, h =>
        rcases h3 c rfl with rfl | rfl
        · obtain ⟨b, hb, hb1, hb2⟩ := h.after
          match s, hb with
          | b' :: s, hb =>
            simp only [List.head?_cons, Option.some.injEq] at hb
            subst hb
            have ht : Tidy (b' :: s) := by
              refine Tidy.tail (p := w ++ [' ']) ?_ (by simpa using hb1)
              rw [List.append_assoc]
              exact h
            have hr := ih.2 _ rfl ht
            have hd' : Divided (b' :: s) ts := by
              generalize hs : ' ' :: b' :: s = r at hd
              cases hd with
              | nil => cases hs
              | space hd => injection hs with _ e; rw [e]; exact hd
              | newline _ => injection hs with e _; exact absurd e (by decide)
              | @word w' _ _ hw1 hw2 _ _ =>
                match w', hw1, hw2 with
                | d :: w', _, hw2 =>
                  injection hs with e _
                  exact absurd e.symm (hw2 d (by simp)).1
            obtain ⟨t, l, rfl, hn⟩ := hd'.first hb1 hb2
            rw [rendered, if_neg, hr, List.append_assoc]
            · rfl
            · rintro (rfl | e)
              · exact (h2 '\n' (by simp)).2 rfl
              · exact hn e
        · have ht : Tidy ('\n' :: s) := h.tail (by simp)
          have hm : ∃ m, ts = ['\n'] :: m := by
            generalize hs : '\n' :: s = r at hd
            cases hd with
            | nil => cases hs
            | space hd => injection hs with e _; exact absurd e (by decide)
            | newline _ => exact ⟨_, rfl⟩
            | @word w' _ _ hw1 hw2 _ _ =>
              match w', hw1, hw2 with
              | d :: w', _, hw2 =>
                injection hs with e _
                exact absurd e.symm (hw2 d (by simp)).2
          rw [rendered_cons (Or.inr (Or.inr hm)), ih.1 ht]
    · intro s' e
      match w, h1, h2 with
      | d :: w, _, h2 =>
        injection e with e _
        exact absurd e (h2 d (by simp)).1

theorem rendered_tidy : ∀ ts : List Str, (∀ t ∈ ts, IsTok t) → Tidy (rendered ts)
  | [], _ => by intro i hi; cases i <;> cases hi
  | [t], h => by
    intro i hi
    exact absurd rfl ((h t (by simp)).no_space ' ' (List.mem_of_getElem? hi))
  | t :: u :: l, h => by
    have ih := rendered_tidy (u :: l) (fun t ht => h t (by simp [ht]))
    have hu : IsTok u := h u (by simp)
    have ht : IsTok t := h t (by simp)
    have step : ∀ p : Str, (∀ i, p[i]? = some ' ' → 0 < i ∧ ∃ a b, p[i - 1]? = some a ∧ (p ++ rendered (u :: l))[i + 1]? = some b ∧
        (a ≠ ' ' ∧ a ≠ '\n') ∧ b ≠ ' ' ∧ b ≠ '\n') → Tidy (p ++ rendered (u :: l)) := by
      intro p hp i hi
      rcases Nat.lt_or_ge i p.length with hl | hl
      · rw [List.getElem?_append_left hl] at hi
        obtain ⟨h0, a, b, ha, hb, h1, h2⟩ := hp i hi
        exact ⟨h0, a, b, by rw [List.getElem?_append_left (by omega)]; exact ha, hb, h1, h2⟩
      · rw [List.getElem?_append_right hl] at hi
        obtain ⟨h0, a, b, ha, hb, h1, h2⟩ := ih _ hi
        refine ⟨by omega, a, b, ?_, ?_, h1, h2⟩
        · rw [List.getElem?_append_right (by omega), show i - 1 - p.length = i - p.length - 1 by omega]; exact ha
        · rw [List.getElem?_append_right (by omega), show i + 1 - p.length = i - p.length + 1 by omega]; exact hb
    have hnone : ∀ i, t[i]? ≠ some ' ' := fun i hi => ht.no_space ' ' (List.mem_of_getElem? hi) rfl
    rw [rendered]
    apply step
    split
    · intro i hi
      rw [List.append_nil] at hi
      exact absurd hi (hnone i)
    · rename_i hn
      rw [not_or] at hn
      intro i hi
      have hl : i = t.length := by
        rcases Nat.lt_trichotomy i t.length with hl | hl | hl
        · rw [List.getElem?_append_left hl] at hi
          exact absurd hi (hnone i)
        · exact hl
        · rw [List.getElem?_eq_none (by simp; omega)] at hi
          cases hi
      subst hl
      have hpos : 0 < t.length := List.length_pos_iff.mpr ht.ne
      have hw : ∀ t, IsTok t → t ≠ ['\n'] → ∀ c ∈ t, c ≠ ' ' ∧ c ≠ '\n' := by
        intro t ht hn
        rcases ht with e | ⟨_, h⟩
        · exact absurd e hn
        · exact h
      refine ⟨hpos, t[t.length - 1]'(by omega), u[0]'(List.length_pos_iff.mpr hu.ne), ?_, ?_, hw t ht hn.1 _ (List.getElem_mem _),
        hw u hu hn.2 _ (List.getElem_mem _)⟩
      · rw [List.getElem?_append_left (by omega), List.getElem?_eq_getElem]
      · rw [List.getElem?_append_right (by simp)]
        simp only [List.length_append, List.length_cons, List.length_nil, Nat.zero_add, Nat.sub_self]
        cases l with
        | nil => rw [rendered, List.getElem?_eq_getElem]
        | cons v l => rw [rendered, List.append_assoc, List.getElem?_append_left (List.length_pos_iff.mpr hu.ne), List.getElem?_eq_getElem]

theorem pyJoin_chars : ∀ s : Str, pyJoin [] (s.map (fun c => [c])) = s
  | [] => rfl
  | [c] => rfl
  | c :: d :: s => by
    have := pyJoin_chars (d :: s)
    simp only [List.map_cons] at this ⊢
    rw [pyJoin, this]
    rfl

end CollateX
