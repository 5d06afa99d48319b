import Verif.Spec.Json
import Verif.Proofs.RangeSet
/-
Lemmas about the JSON writer and the JSON reader.
-/

namespace CollateX

open Spec

mutual
/-- The symbols of a written value. -/
def Json.toks : Json → List JTok
  | .null => [.null]
  | .bool b => [.bool b]
  | .int i => [.int i]
  | .str s => [.str s]
  | .arr [] => [.lb, .rb]
  | .arr (v :: l) => .lb :: (v.toks ++ (toksItems l ++ [.rb]))
  | .obj [] => [.lc, .rc]
  | .obj ((k, v) :: l) => .lc :: .str k :: .colon :: (v.toks ++ (toksEntries l ++ [.rc]))
/-- The items of a list after the first. -/
def toksItems : List Json → List JTok
  | [] => []
  | v :: l => .comma :: (v.toks ++ toksItems l)
/-- The entries of a dict after the first. -/
def toksEntries : List (Str × Json) → List JTok
  | [] => []
  | (k, v) :: l => .comma :: .str k :: .colon :: (v.toks ++ toksEntries l)
end

/-! ### Reading the symbols -/

theorem toks_pos (v : Json) : 0 < v.toks.length := by
  cases v with
  | arr l => cases l <;> simp [Json.toks]
  | obj l =>
    cases l with
    | nil => simp [Json.toks]
    | cons e l => obtain ⟨k, v⟩ := e; simp [Json.toks]
  | _ => simp [Json.toks]

theorem toks_head (v : Json) (ts : List JTok) : ∃ a b, v.toks ++ ts = a :: b ∧ a ≠ .rb ∧ a ≠ .rc := by
  cases v with
  | arr l => cases l <;> exact ⟨_, _, rfl, by simp, by simp⟩
  | obj l =>
    cases l with
    | nil => exact ⟨_, _, rfl, by simp, by simp⟩
    | cons e l => obtain ⟨k, v⟩ := e; exact ⟨_, _, rfl, by simp, by simp⟩
  | _ => exact ⟨_, _, rfl, by simp, by simp⟩

mutual
theorem parse_value : ∀ (v : Json) (n : Nat) (ts : List JTok), v.toks.length ≤ n → parseJson n (v.toks ++ ts) = some (v, ts)
  | v, 0, ts, h => absurd h (by have := toks_pos v; omega)
  | .null, n + 1, ts, _ => by simp [Json.toks, parseJson]
  | .bool b, n + 1, ts, _ => by simp [Json.toks, parseJson]
  | .int i, n + 1, ts, _ => by simp [Json.toks, parseJson]
  | .str s, n + 1, ts, _ => by simp [Json.toks, parseJson]
  | .arr [], n + 1, ts, _ => by simp [Json.toks, parseJson]
  | .arr (v :: l), n + 1, ts, h => by
    simp only [Json.toks, List.length_cons, List.length_append, List.length_nil] at h
    have h1 := parse_value v n (toksItems l ++ JTok.rb :: ts) (by omega)
    have h2 := parse_items l n ts (by omega)
    simp only [Json.toks, List.cons_append, List.append_assoc, List.nil_append]
    obtain ⟨a, b, e, ha, _⟩ := toks_head v (toksItems l ++ JTok.rb :: ts)
    rw [e] at h1 ⊢
    rw [parseJson]
    · rw [h1]
      simp only [Option.bind_eq_bind, Option.bind_some]
      rw [h2]
      rfl
    · intro ts' e'
      injection e' with e1 _
      exact ha e1
  | .obj [], n + 1, ts, _ => by simp [Json.toks, parseJson]
  | .obj ((k, v) :: l), n + 1, ts, h => by
    simp only [Json.toks, List.length_cons, List.length_append, List.length_nil] at h
    have h1 := parse_value v n (toksEntries l ++ (JTok.rc :: ts)) (by omega)
    have h2 := parse_entries l n ts (by omega)
    simp only [Json.toks, List.cons_append, List.append_assoc, List.nil_append]
    rw [parseJson, h1]
    simp only [Option.bind_eq_bind, Option.bind_some]
    rw [h2]
    rfl
theorem parse_items : ∀ (l : List Json) (n : Nat) (ts : List JTok), (toksItems l).length + 1 ≤ n →
    parseItems n (toksItems l ++ JTok.rb :: ts) = some (l, ts)
  | _, 0, ts, h => absurd h (by omega)
  | [], n + 1, ts, _ => by simp [toksItems, parseItems]
  | v :: l, n + 1, ts, h => by
    simp only [toksItems, List.length_cons, List.length_append] at h
    simp only [toksItems, List.cons_append, List.append_assoc]
    rw [parseItems, parse_value v n _ (by omega)]
    simp only [Option.bind_eq_bind, Option.bind_some]
    rw [parse_items l n ts (by have := toks_pos v; omega)]
    rfl
theorem parse_entries : ∀ (l : List (Str × Json)) (n : Nat) (ts : List JTok), (toksEntries l).length + 1 ≤ n →
    parseEntries n (toksEntries l ++ JTok.rc :: ts) = some (l, ts)
  | _, 0, ts, h => absurd h (by omega)
  | [], n + 1, ts, _ => by simp [toksEntries, parseEntries]
  | (k, v) :: l, n + 1, ts, h => by
    simp only [toksEntries, List.length_cons, List.length_append] at h
    simp only [toksEntries, List.cons_append, List.append_assoc]
    rw [parseEntries, parse_value v n _ (by omega)]
    simp only [Option.bind_eq_bind, Option.bind_some]
    rw [parse_entries l n ts (by have := toks_pos v; omega)]
    rfl
end

/-! ### Cutting the text into symbols -/

/-- A number or a word ends before this text. -/
def EndsBefore (cs : Str) : Prop := ∀ c, cs.head? = some c → c.isDigit = false ∧ c.isAlpha = false

theorem lex_done {st : JLex} {a : List JTok} {cs : Str} (hst : (∃ neg ds, st = .num neg ds) ∨ ∃ w, st = .word w) (ha : st.done = some a)
    (hcs : EndsBefore cs) : lexJson st cs = (lexJson .start cs).map (a ++ ·) := by
  cases cs with
  | nil =>
    have h0 : lexJson .start [] = some [] := rfl
    rw [h0, Option.map_some, List.append_nil, ← ha]
    rcases hst with ⟨neg, ds, rfl⟩ | ⟨w, rfl⟩ <;> rw [lexJson]
  | cons c cs =>
    obtain ⟨h1, h2⟩ := hcs c rfl
    rcases hst with ⟨neg, ds, rfl⟩ | ⟨w, rfl⟩
    · rw [lexJson, if_neg (by simp [h1]), lexJson, ha]
      cases JLex.begin c with
      | none => rfl
      | some p => simp only [Option.bind_eq_bind, Option.bind_some]; cases lexJson p.2 cs <;> simp
    · rw [lexJson, if_neg (by simp [h2]), lexJson, ha]
      cases JLex.begin c with
      | none => rfl
      | some p => simp only [Option.bind_eq_bind, Option.bind_some]; cases lexJson p.2 cs <;> simp

theorem lex_punct {c : Char} {t : JTok} (h : JLex.begin c = some ([t], .start)) (cs : Str) :
    lexJson .start (c :: cs) = (lexJson .start cs).map (t :: ·) := by
  rw [lexJson, h]
  simp only [Option.bind_eq_bind, Option.bind_some]
  cases lexJson .start cs <;> rfl

theorem lex_blank {c : Char} (h : JLex.begin c = some ([], .start)) (cs : Str) : lexJson .start (c :: cs) = lexJson .start cs := by
  rw [lexJson, h]
  simp only [Option.bind_eq_bind, Option.bind_some]
  cases lexJson .start cs <;> rfl

theorem lex_newline (indent : Option Nat) (level : Nat) (cs : Str) :
    lexJson .start (jsonNewline indent level ++ cs) = lexJson .start cs := by
  cases indent with
  | none => rfl
  | some k =>
    show lexJson .start ('\n' :: (List.replicate (k * level) ' ' ++ cs)) = _
    rw [lex_blank (by decide)]
    generalize k * level = n
    induction n with
    | zero => rfl
    | succ n ih => rw [List.replicate_succ, List.cons_append, lex_blank (by decide), ih]

theorem lex_sep (indent : Option Nat) (level : Nat) (cs : Str) :
    lexJson .start (jsonSep indent level ++ cs) = (lexJson .start cs).map (JTok.comma :: ·) := by
  cases indent with
  | none =>
    show lexJson .start (',' :: ' ' :: cs) = _
    rw [lex_punct (t := .comma) (by decide), lex_blank (by decide)]
  | some k =>
    show lexJson .start (',' :: (jsonNewline (some k) level ++ cs)) = _
    rw [lex_punct (t := .comma) (by decide), lex_newline]

theorem lex_uni_step {c : Char} {d : Nat} (h : hexValue c = some d) (s : Str) (left value : Nat) (cs : Str) :
    lexJson (.uni s (left + 1) value) (c :: cs) = lexJson (.uni s left (16 * value + d)) cs := by
  rw [lexJson, h]

theorem lex_uni_last {c : Char} {d : Nat} (h : hexValue c = some d) (s : Str) (value : Nat) (cs : Str) (hv : (16 * value + d).isValidChar) :
    lexJson (.uni s 0 value) (c :: cs) = lexJson (.str (s ++ [Char.ofNat (16 * value + d)])) cs := by
  rw [lexJson, h]
  simp only
  rw [if_pos hv]

theorem hexValue_hexDigit : ∀ n : Nat, n < 16 → hexValue (hexDigit n) = some n := by decide

theorem lex_char (c : Char) (s : Str) (cs : Str) : lexJson (.str s) (jsonChar c ++ cs) = lexJson (.str (s ++ [c])) cs := by
  have hesc : ∀ d : Char, escaped d = some c → lexJson (.str s) (('\\' :: d :: []) ++ cs) = lexJson (.str (s ++ [c])) cs := by
    intro d hd
    show lexJson (.str s) ('\\' :: d :: cs) = _
    rw [lexJson, if_neg (by decide), if_pos rfl, lexJson, hd]
  have hnat : ∀ n : Nat, c.toNat = n → Char.ofNat n = c := by
    rintro n rfl
    exact Char.ofNat_toNat c
  unfold jsonChar
  by_cases h1 : c = '\\'
  · rw [if_pos h1]; subst h1; exact hesc '\\' (by decide)
  rw [if_neg h1]
  by_cases h2 : c = '"'
  · rw [if_pos h2]; subst h2; exact hesc '"' (by decide)
  rw [if_neg h2]
  by_cases h3 : c.toNat = 8
  · rw [if_pos h3]; exact hesc 'b' (by rw [← hnat 8 h3]; decide)
  rw [if_neg h3]
  by_cases h4 : c.toNat = 12
  · rw [if_pos h4]; exact hesc 'f' (by rw [← hnat 12 h4]; decide)
  rw [if_neg h4]
  by_cases h5 : c = '\n'
  · rw [if_pos h5]; subst h5; exact hesc 'n' (by decide)
  rw [if_neg h5]
  by_cases h6 : c = '\r'
  · rw [if_pos h6]; subst h6; exact hesc 'r' (by decide)
  rw [if_neg h6]
  by_cases h7 : c = '\t'
  · rw [if_pos h7]; subst h7; exact hesc 't' (by decide)
  rw [if_neg h7]
  by_cases h8 : c.toNat < 32
  · rw [if_pos h8]
    show lexJson (.str s) ('\\' :: 'u' :: '0' :: '0' :: hexDigit (c.toNat / 16) :: hexDigit (c.toNat % 16) :: cs) = _
    rw [lexJson, if_neg (by decide), if_pos rfl, lexJson, show escaped 'u' = none from by decide]
    simp only [if_true]
    have h0 : hexValue '0' = some 0 := by decide
    rw [lex_uni_step h0, lex_uni_step h0, lex_uni_step (hexValue_hexDigit _ (by omega))]
    have hval : 16 * (16 * (16 * (16 * 0 + 0) + 0) + c.toNat / 16) + c.toNat % 16 = c.toNat := by omega
    rw [lex_uni_last (hexValue_hexDigit _ (by omega)) _ _ _ (by rw [hval]; exact .inl (by omega)), hval, Char.ofNat_toNat]
  · rw [if_neg h8]
    show lexJson (.str s) (c :: cs) = _
    rw [lexJson, if_neg h2, if_neg h1, if_neg h8]

theorem lex_chars : ∀ (x s : Str) (cs : Str), lexJson (.str s) (x.flatMap jsonChar ++ cs) = lexJson (.str (s ++ x)) cs
  | [], s, cs => by simp
  | c :: x, s, cs => by
    rw [List.flatMap_cons, List.append_assoc, lex_char, lex_chars x]
    simp

theorem lex_string (s cs : Str) : lexJson .start (jsonString s ++ cs) = (lexJson .start cs).map (JTok.str s :: ·) := by
  unfold jsonString
  show lexJson .start ('"' :: ((s.flatMap jsonChar ++ ['"']) ++ cs)) = _
  rw [lexJson, show JLex.begin '"' = some ([], .str []) from by decide, List.append_assoc]
  simp only [Option.bind_eq_bind, Option.bind_some]
  rw [lex_chars]
  simp only [List.nil_append, List.cons_append]
  rw [lexJson, if_pos rfl]
  cases lexJson .start cs <;> rfl

theorem lex_digits : ∀ (x : Str) (neg : Bool) (ds cs : Str), (∀ c ∈ x, c.isDigit = true) →
    lexJson (.num neg ds) (x ++ cs) = lexJson (.num neg (ds ++ x)) cs
  | [], neg, ds, cs, _ => by simp
  | c :: x, neg, ds, cs, h => by
    rw [List.cons_append, lexJson, if_pos (h c (by simp)), lex_digits x _ _ _ (fun c hc => h c (by simp [hc]))]
    simp

theorem begin_digit {c : Char} (h : c.isDigit = true) : JLex.begin c = some ([], .num false [c]) := by
  have hne : ∀ d : Char, d.isDigit = false → c ≠ d := fun d hd => isDigit_ne h hd
  unfold JLex.begin
  rw [if_neg (hne _ (by decide)), if_neg (hne _ (by decide)), if_neg (hne _ (by decide)), if_neg (hne _ (by decide)),
    if_neg (hne _ (by decide)), if_neg (hne _ (by decide)), if_neg (by
      rintro (e | e | e | e) <;> exact hne _ (by decide) e), if_neg (hne _ (by decide)), if_neg (hne _ (by decide)), if_pos h]

theorem natStr_isDigit {n : Nat} {c : Char} (h : c ∈ natStr n) : c.isDigit = true := by
  rw [natStr_digits] at h
  exact Nat.isDigit_of_mem_toDigits (by omega) (by omega) h

theorem num_done (neg : Bool) (n : Nat) : (JLex.num neg (natStr n)).done = some [.int (if neg then -(n : Int) else n)] := by
  unfold JLex.done
  simp only
  have hv : Nat.ofDigitChars 10 (natStr n) 0 = n := by
    have := padded_value 0 n
    unfold padded at this
    simpa using this
  rw [hv, if_neg]
  rintro (e | ⟨e1, e2⟩)
  · rw [natStr_digits] at e
    exact Nat.toDigits_ne_nil e
  · rw [natStr_digits] at e1 e2
    by_cases hn : n = 0
    · subst hn; exact e2 (by decide)
    · obtain ⟨c, l, h1, h2⟩ := toDigits_head n hn
      rw [h1] at e1
      exact h2 (by simpa using e1)

theorem lex_int (i : Int) (cs : Str) (hcs : EndsBefore cs) :
    lexJson .start (jsonInt i ++ cs) = (lexJson .start cs).map (JTok.int i :: ·) := by
  cases i with
  | ofNat n =>
    show lexJson .start (natStr n ++ cs) = _
    have hd := num_done false n
    have hall : ∀ c ∈ natStr n, c.isDigit = true := fun c hc => natStr_isDigit hc
    cases hs : natStr n with
    | nil => rw [hs] at hd; simp [JLex.done] at hd
    | cons c x =>
      rw [hs] at hd hall
      rw [List.cons_append, lexJson, begin_digit (hall c (by simp))]
      simp only [Option.bind_eq_bind, Option.bind_some]
      rw [lex_digits x _ _ _ (fun c hc => hall c (by simp [hc]))]
      simp only [List.cons_append, List.nil_append]
      rw [lex_done (.inl ⟨_, _, rfl⟩) hd hcs]
      cases lexJson .start cs <;> rfl
  | negSucc n =>
    show lexJson .start ('-' :: (natStr (n + 1) ++ cs)) = _
    rw [lexJson, show JLex.begin '-' = some ([], .num true []) from by decide]
    simp only [Option.bind_eq_bind, Option.bind_some]
    rw [lex_digits _ _ _ _ (fun c hc => natStr_isDigit hc), List.nil_append, lex_done (.inl ⟨_, _, rfl⟩) (num_done true (n + 1)) hcs]
    cases lexJson .start cs <;> rfl

theorem lex_letters : ∀ (x w cs : Str), (∀ c ∈ x, c.isAlpha = true) → lexJson (.word w) (x ++ cs) = lexJson (.word (w ++ x)) cs
  | [], w, cs, _ => by simp
  | c :: x, w, cs, h => by
    rw [List.cons_append, lexJson, if_pos (h c (by simp)), lex_letters x _ _ (fun c hc => h c (by simp [hc]))]
    simp

theorem lex_word {c : Char} {x : Str} {t : JTok} (hc : JLex.begin c = some ([], .word [c])) (hx : ∀ d ∈ x, d.isAlpha = true)
    (ht : (JLex.word (c :: x)).done = some [t]) (cs : Str) (hcs : EndsBefore cs) :
    lexJson .start (c :: x ++ cs) = (lexJson .start cs).map (t :: ·) := by
  rw [List.cons_append, lexJson, hc]
  simp only [Option.bind_eq_bind, Option.bind_some]
  rw [lex_letters x _ _ hx]
  simp only [List.cons_append, List.nil_append]
  rw [lex_done (.inr ⟨_, rfl⟩) ht hcs]
  cases lexJson .start cs <;> rfl

theorem endsBefore_cons {c : Char} (h : c.isDigit = false ∧ c.isAlpha = false) (cs : Str) : EndsBefore (c :: cs) := by
  intro d hd
  simp only [List.head?_cons, Option.some.injEq] at hd
  rw [← hd]; exact h

theorem endsBefore_newline (indent : Option Nat) (level : Nat) {cs : Str} (h : EndsBefore cs) : EndsBefore (jsonNewline indent level ++ cs) := by
  cases indent with
  | none => exact h
  | some k => exact endsBefore_cons (by decide) _

theorem endsBefore_sep (indent : Option Nat) (level : Nat) (cs : Str) : EndsBefore (jsonSep indent level ++ cs) := by
  cases indent with
  | none => exact endsBefore_cons (by decide) _
  | some k => exact endsBefore_cons (by decide) _

theorem endsBefore_items (indent : Option Nat) (level : Nat) (l : List Json) {cs : Str} (h : EndsBefore cs) :
    EndsBefore (textItems indent l level ++ cs) := by
  cases l with
  | nil => simpa [textItems] using h
  | cons v l => rw [textItems, List.append_assoc, List.append_assoc]; exact endsBefore_sep _ _ _

theorem endsBefore_entries (indent : Option Nat) (level : Nat) (l : List (Str × Json)) {cs : Str} (h : EndsBefore cs) :
    EndsBefore (textEntries indent l level ++ cs) := by
  cases l with
  | nil => simpa [textEntries] using h
  | cons e l =>
    obtain ⟨k, v⟩ := e
    rw [textEntries, List.append_assoc, List.append_assoc, List.append_assoc, List.append_assoc]; exact endsBefore_sep _ _ _

theorem lex_colon (cs : Str) : lexJson .start (S ": " ++ cs) = (lexJson .start cs).map (JTok.colon :: ·) := by
  show lexJson .start (':' :: ' ' :: cs) = _
  rw [lex_punct (t := .colon) (by decide), lex_blank (by decide)]

mutual
theorem lex_value (indent : Option Nat) : ∀ (v : Json) (level : Nat) (cs : Str), EndsBefore cs →
    lexJson .start (v.text indent level ++ cs) = (lexJson .start cs).map (v.toks ++ ·)
  | .null, level, cs, h => by
    rw [Json.text]
    exact lex_word (c := 'n') (x := S "ull") (by decide) (by decide) (by decide) cs h
  | .bool true, level, cs, h => by
    rw [Json.text]
    exact lex_word (c := 't') (x := S "rue") (by decide) (by decide) (by decide) cs h
  | .bool false, level, cs, h => by
    rw [Json.text]
    exact lex_word (c := 'f') (x := S "alse") (by decide) (by decide) (by decide) cs h
  | .int i, level, cs, h => by
    rw [Json.text]
    exact lex_int i cs h
  | .str s, level, cs, h => by
    rw [Json.text]
    exact lex_string s cs
  | .arr [], level, cs, h => by
    rw [Json.text]
    show lexJson .start ('[' :: ']' :: cs) = _
    rw [lex_punct (t := .lb) (by decide), lex_punct (t := .rb) (by decide), Option.map_map]
    rfl
  | .arr (v :: l), level, cs, h => by
    have hend : EndsBefore (jsonNewline indent level ++ ']' :: cs) := endsBefore_newline _ _ (endsBefore_cons (by decide) _)
    rw [Json.text]
    simp only [List.cons_append, List.append_assoc, List.nil_append]
    rw [lex_punct (t := .lb) (by decide), lex_newline, lex_value indent v (level + 1) _ (endsBefore_items _ _ _ hend),
      lex_items indent l (level + 1) _ hend, lex_newline, lex_punct (t := .rb) (by decide)]
    cases lexJson .start cs with
    | none => rfl
    | some r => simp [Json.toks]
  | .obj [], level, cs, h => by
    rw [Json.text]
    show lexJson .start ('{' :: '}' :: cs) = _
    rw [lex_punct (t := .lc) (by decide), lex_punct (t := .rc) (by decide), Option.map_map]
    rfl
  | .obj ((k, v) :: l), level, cs, h => by
    have hend : EndsBefore (jsonNewline indent level ++ '}' :: cs) := endsBefore_newline _ _ (endsBefore_cons (by decide) _)
    rw [Json.text]
    simp only [List.cons_append, List.append_assoc, List.nil_append]
    rw [lex_punct (t := .lc) (by decide), lex_newline, lex_string, lex_colon,
      lex_value indent v (level + 1) _ (endsBefore_entries _ _ _ hend),
      lex_entries indent l (level + 1) _ hend, lex_newline, lex_punct (t := .rc) (by decide)]
    cases lexJson .start cs with
    | none => rfl
    | some r => simp [Json.toks]
theorem lex_items (indent : Option Nat) : ∀ (l : List Json) (level : Nat) (cs : Str), EndsBefore cs →
    lexJson .start (textItems indent l level ++ cs) = (lexJson .start cs).map (toksItems l ++ ·)
  | [], level, cs, h => by
    rw [textItems, List.nil_append]
    cases lexJson .start cs <;> simp [toksItems]
  | v :: l, level, cs, h => by
    rw [textItems]
    simp only [List.append_assoc]
    rw [lex_sep, lex_value indent v level _ (endsBefore_items _ _ _ h), lex_items indent l level _ h]
    cases lexJson .start cs with
    | none => rfl
    | some r => simp [toksItems]
theorem lex_entries (indent : Option Nat) : ∀ (l : List (Str × Json)) (level : Nat) (cs : Str), EndsBefore cs →
    lexJson .start (textEntries indent l level ++ cs) = (lexJson .start cs).map (toksEntries l ++ ·)
  | [], level, cs, h => by
    rw [textEntries, List.nil_append]
    cases lexJson .start cs <;> simp [toksEntries]
  | (k, v) :: l, level, cs, h => by
    rw [textEntries]
    simp only [List.append_assoc]
    rw [lex_sep, lex_string, lex_colon, lex_value indent v level _ (endsBefore_entries _ _ _ h), lex_entries indent l level _ h]
    cases lexJson .start cs with
    | none => rfl
    | some r => simp [toksEntries]
end

/-- Reading a written value gives the value. -/
theorem readJson_text (indent : Option Nat) (v : Json) (level : Nat) : readJson (v.text indent level) = some v := by
  have h := lex_value indent v level [] (by intro c hc; cases hc)
  rw [List.append_nil] at h
  unfold readJson
  rw [h]
  have hs : lexJson .start [] = some [] := rfl
  rw [hs]
  have hp := parse_value v v.toks.length [] (Nat.le_refl _)
  rw [List.append_nil] at hp
  simp [hp]

end CollateX
