import Verif.Spec.Export
import Verif.Proofs.Dict
import Verif.Proofs.SuffixArray
import Verif.Proofs.Tokenizer
import Verif.Proofs.Valid
/-
Lemmas about the exporters.
-/

namespace CollateX
open Spec

/-! ### Texts -/

theorem tokenT_ok {t : Token} {s : Str} : tokenT t = .ok s ↔ dget t.data .t = some (.str s) := by
  unfold tokenT
  cases h : dget t.data .t with
  | none => simp
  | some v => cases v <;> simp

theorem cellText_iff : ∀ {ts : List Token} {s : Str}, cellText ts = .ok s ↔ TextOf ts s
  | [], s => by
    simp only [cellText, Except.ok.injEq, TextOf]
    constructor
    · rintro rfl; exact ⟨[], rfl, rfl⟩
    · rintro ⟨l, h, rfl⟩
      cases l with
      | nil => rfl
      | cons a l => simp at h
  | t :: ts, s => by
    unfold cellText
    rw [bind_eq_ok]
    constructor
    · rintro ⟨a, ha, h⟩
      obtain ⟨b, hb, h⟩ := bind_eq_ok.mp h
      obtain ⟨l, hl, rfl⟩ := cellText_iff.mp hb
      obtain rfl := Except.ok.inj h
      exact ⟨a :: l, by simp [hl, tokenT_ok.mp ha], rfl⟩
    · rintro ⟨l, h, rfl⟩
      cases l with
      | nil => simp at h
      | cons a l =>
        simp only [List.map_cons, List.cons.injEq] at h
        exact ⟨a, tokenT_ok.mpr h.1, bind_eq_ok.mpr ⟨l.flatten, cellText_iff.mpr ⟨l, h.2, rfl⟩, rfl⟩⟩

theorem _root_.CollateX.Spec.TextOf.unique {ts : List Token} {s s' : Str} (h : TextOf ts s) (h' : TextOf ts s') : s = s' := by
  have h1 := cellText_iff.mpr h
  rw [cellText_iff.mpr h'] at h1
  exact (Except.ok.inj h1).symm

theorem textOf_append {a b : List Token} {s : Str} : TextOf (a ++ b) s ↔ ∃ x y, TextOf a x ∧ TextOf b y ∧ s = x ++ y := by
  constructor
  · rintro ⟨l, h, rfl⟩
    rw [List.map_append] at h
    obtain ⟨l1, l2, rfl, h1, h2⟩ := List.map_eq_append_iff.mp h.symm
    exact ⟨_, _, ⟨l1, h1.symm, rfl⟩, ⟨l2, h2.symm, rfl⟩, by simp⟩
  · rintro ⟨x, y, ⟨l1, h1, rfl⟩, ⟨l2, h2, rfl⟩, rfl⟩
    exact ⟨l1 ++ l2, by simp [h1, h2], by simp⟩

theorem textOf_nil : TextOf [] [] := ⟨[], rfl, rfl⟩

theorem textOf_flatten : ∀ {ls : List (List Token)} {xs : List Str}, List.Forall₂ TextOf ls xs → TextOf ls.flatten xs.flatten
  | _, _, .nil => textOf_nil
  | _, _, .cons h hs => textOf_append.mpr ⟨_, _, h, textOf_flatten hs, rfl⟩

/-- Tokens with string `t` values have a text. -/
theorem exists_textOf {ts : List Token} (h : ∀ t ∈ ts, ∃ s, dget t.data .t = some (.str s)) : ∃ s, TextOf ts s := by
  induction ts with
  | nil => exact ⟨_, textOf_nil⟩
  | cons t ts ih =>
    obtain ⟨s, hs⟩ := ih (fun t ht => h t (by simp [ht]))
    obtain ⟨a, ha⟩ := h t (by simp)
    exact ⟨a ++ s, (textOf_append (a := [t]) (b := ts)).mpr ⟨a, s, ⟨[a], by simp [ha], by simp⟩, hs, rfl⟩⟩

theorem cellOrNone_eq (c : Option (List Token)) : (cellOrNone c).getD [] = c.getD [] := by
  unfold cellOrNone
  split <;> rfl

/-! ### CSV -/

theorem cellsToStrings_ok : ∀ {cs : List (Option (List Token))} {xs : List (Option Str)}, cellsToStrings cs = .ok xs →
    List.Forall₂ (fun c x => CellTextOf c (x.getD [])) cs xs
  | [], xs, h => by
    obtain rfl := Except.ok.inj h
    exact .nil
  | c :: cs, xs, h => by
    unfold cellsToStrings at h
    obtain ⟨a, ha, h⟩ := bind_eq_ok.mp h
    obtain ⟨b, hb, h⟩ := bind_eq_ok.mp h
    obtain rfl := Except.ok.inj h
    refine .cons ?_ (cellsToStrings_ok hb)
    unfold CellTextOf
    rw [← cellOrNone_eq]
    split at ha
    · rename_i h0
      obtain rfl := Except.ok.inj ha
      rw [h0]
      exact textOf_nil
    · rename_i ts h0
      obtain ⟨s, hs, ha⟩ := bind_eq_ok.mp ha
      obtain rfl := Except.ok.inj ha
      rw [h0]
      exact cellText_iff.mp hs

theorem exists_cellsToStrings {cs : List (Option (List Token))}
    (h : ∀ c ∈ cs, ∃ s, CellTextOf c s) : ∃ xs, cellsToStrings cs = .ok xs := by
  induction cs with
  | nil => exact ⟨[], rfl⟩
  | cons c cs ih =>
    obtain ⟨xs, hxs⟩ := ih (fun c hc => h c (by simp [hc]))
    obtain ⟨s, hs⟩ := h c (by simp)
    unfold CellTextOf at hs
    rw [← cellOrNone_eq] at hs
    unfold cellsToStrings
    cases h0 : cellOrNone c with
    | none => exact ⟨none :: xs, by simp [bind_ok, hxs]⟩
    | some ts =>
      rw [h0] at hs
      have h1 : cellText ts = .ok s := cellText_iff.mpr hs
      exact ⟨some s :: xs, by simp [bind_ok, hxs, h1]⟩

section
variable {d : Char}

theorem read_plain (hd : d ≠ '"') : ∀ (s f : Str) (r : List Str) (cs : Str), csvNeedsQuote d s = false →
    (readCsvFrom d .plain f r (s ++ d :: cs) = readCsvFrom d .start [] (r ++ [f ++ s]) cs ∧
     (d ≠ '\n' → readCsvFrom d .plain f r (s ++ '\n' :: cs) = (r ++ [f ++ s]) :: readCsvFrom d .start [] [] cs))
  | [], f, r, cs, _ => by
    refine ⟨by simp [readCsvFrom], fun hn => ?_⟩
    simp only [List.nil_append, readCsvFrom, List.append_nil]
    rw [if_neg (fun h => hn h.symm), if_pos trivial]
  | c :: s, f, r, cs, h => by
    simp only [csvNeedsQuote, List.any_cons, Bool.or_eq_false_iff, beq_eq_false_iff_ne, ne_eq] at h
    have ih := read_plain hd s (f ++ [c]) r cs (by simpa [csvNeedsQuote] using h.2)
    simp only [List.cons_append, readCsvFrom]
    rw [if_neg h.1.1.1.1, if_neg h.1.2]
    refine ⟨by rw [ih.1]; simp, fun hn => ?_⟩
    rw [if_neg h.1.1.1.1, if_neg h.1.2, ih.2 hn]
    simp

theorem read_quoted : ∀ (s f : Str) (r : List Str) (cs : Str),
    readCsvFrom d .quoted f r (csvDouble s ++ '"' :: cs) = readCsvFrom d .quote (f ++ s) r cs
  | [], f, r, cs => by simp [csvDouble, readCsvFrom]
  | c :: s, f, r, cs => by
    unfold csvDouble
    by_cases hc : c = '"'
    · subst hc
      simp only [beq_self_eq_true, if_true, List.cons_append, readCsvFrom]
      rw [read_quoted]
      simp
    · simp only [beq_iff_eq, hc, if_false, List.cons_append, readCsvFrom]
      rw [read_quoted]
      simp

/-- One field and the delimiter or line end after it. -/
theorem read_field (hd : d ≠ '"') (hn : d ≠ '\n') (x : Option Str) (r : List Str) (cs : Str) :
    readCsvFrom d .start [] r (csvField d x ++ d :: cs) = readCsvFrom d .start [] (r ++ [x.getD []]) cs ∧
    readCsvFrom d .start [] r (csvField d x ++ '\n' :: cs) = (r ++ [x.getD []]) :: readCsvFrom d .start [] [] cs := by
  have hempty : ∀ r cs, readCsvFrom d .start [] r (d :: cs) = readCsvFrom d .start [] (r ++ [[]]) cs ∧
      readCsvFrom d .start [] r ('\n' :: cs) = (r ++ [[]]) :: readCsvFrom d .start [] [] cs := by
    intro r cs
    have hq : ('\n' : Char) ≠ '"' := by decide
    simp only [readCsvFrom, if_neg hd, if_neg hq, if_neg hn.symm, if_true]
    exact ⟨trivial, trivial⟩
  cases x with
  | none => exact hempty r cs
  | some s =>
    unfold csvField
    by_cases hs : csvNeedsQuote d s = true
    · simp only [hs, if_true, List.cons_append, List.append_assoc, List.nil_append, Option.getD_some]
      have hq : ('\n' : Char) ≠ '"' := by decide
      constructor
      · rw [readCsvFrom, if_pos rfl, read_quoted]
        simp only [readCsvFrom, if_neg hd, if_true, List.nil_append]
      · rw [readCsvFrom, if_pos rfl, read_quoted]
        simp only [readCsvFrom, if_neg hq, if_neg hn.symm, if_true, List.nil_append]
    · simp only [hs, Bool.false_eq_true, if_false, Option.getD_some]
      cases s with
      | nil => exact hempty r cs
      | cons c s =>
        have hs' : csvNeedsQuote d (c :: s) = false := by simpa using hs
        have h := hs'
        simp only [csvNeedsQuote, List.any_cons, Bool.or_eq_false_iff, beq_eq_false_iff_ne, ne_eq] at h
        have hp := read_plain hd s [c] r cs (by simpa [csvNeedsQuote] using h.2)
        constructor
        · simp only [List.cons_append, readCsvFrom, if_neg h.1.1.1.2, if_neg h.1.1.1.1, if_neg h.1.2, List.nil_append]
          exact hp.1
        · simp only [List.cons_append, readCsvFrom, if_neg h.1.1.1.2, if_neg h.1.1.1.1, if_neg h.1.2, List.nil_append]
          exact hp.2 hn

theorem read_join (hd : d ≠ '"') (hn : d ≠ '\n') : ∀ (x : Option Str) (xs : List (Option Str)) (r : List Str) (cs : Str),
    readCsvFrom d .start [] r (csvJoin d ((x :: xs).map (csvField d)) ++ '\n' :: cs) =
      (r ++ (x :: xs).map (fun o => o.getD [])) :: readCsvFrom d .start [] [] cs
  | x, [], r, cs => by
    simp only [List.map_cons, List.map_nil, csvJoin]
    exact (read_field hd hn x r cs).2
  | x, y :: ys, r, cs => by
    have := read_join hd hn y ys (r ++ [x.getD []]) cs
    simp only [List.map_cons, csvJoin, List.append_assoc, List.cons_append] at this ⊢
    rw [(read_field hd hn x r _).1, this]
    simp

theorem no_cr_csvDouble {s : Str} (h : '\r' ∉ s) : '\r' ∉ csvDouble s := by
  induction s with
  | nil => simp [csvDouble]
  | cons c s ih =>
    simp only [List.mem_cons, not_or] at h
    unfold csvDouble
    split
    · simp [ih h.2]
    · simp [ih h.2, h.1]

theorem no_cr_field {x : Option Str} (h : '\r' ∉ x.getD []) : '\r' ∉ csvField d x := by
  cases x with
  | none => simp [csvField]
  | some s =>
    unfold csvField
    simp only
    split
    · have h1 : '\r' ∉ s := h
      simp [no_cr_csvDouble h1]
    · exact h

theorem no_cr_join (hr : d ≠ '\r') : ∀ {l : List Str}, (∀ s ∈ l, '\r' ∉ s) → '\r' ∉ csvJoin d l
  | [], _ => by simp [csvJoin]
  | [s], h => by simpa [csvJoin] using h s (by simp)
  | s :: t :: l, h => by
    have := no_cr_join hr (l := t :: l) (fun x hx => h x (by simp at hx ⊢; tauto))
    simp only [csvJoin, List.mem_append, List.mem_cons, not_or]
    exact ⟨h s (by simp), fun e => hr e.symm, this⟩

theorem universalNewlines_line : ∀ {a : Str}, '\r' ∉ a → universalNewlines (a ++ ['\r', '\n']) = a ++ ['\n']
  | [], _ => rfl
  | c :: a, h => by
    simp only [List.mem_cons, not_or] at h
    have ih := universalNewlines_line h.2
    simp only [List.cons_append]
    rw [universalNewlines]
    · rw [ih]
    · intro _ e; exact absurd e.symm h.1
    · intro e; exact absurd e.symm h.1

/-- One record, as written. -/
theorem record_line (hr : d ≠ '\r') (x : Option Str) (xs : List (Option Str))
    (hcr : ∀ y ∈ x :: xs, '\r' ∉ y.getD []) (hd : d ≠ '"') (hn : d ≠ '\n') (cs : Str) :
    readCsvFrom d .start [] [] (universalNewlines (csvRecord d (x :: xs)) ++ cs) =
      (x :: xs).map (fun o => o.getD []) :: readCsvFrom d .start [] [] cs := by
  unfold csvRecord
  simp only
  by_cases h0 : csvJoin d ((x :: xs).map (csvField d)) = []
  · rw [if_pos ⟨h0, by simp⟩]
    have hx : xs = [] ∧ csvField d x = [] := by
      cases xs with
      | nil => exact ⟨rfl, by simpa [csvJoin] using h0⟩
      | cons y ys => simp [csvJoin] at h0
    obtain ⟨rfl, hx⟩ := hx
    have hx' : x.getD [] = [] := by
      cases x with
      | none => rfl
      | some s =>
        unfold csvField at hx
        simp only at hx
        split at hx
        · simp at hx
        · exact hx
    rw [universalNewlines_line (by decide)]
    have hq : ('\n' : Char) ≠ '"' := by decide
    simp [readCsvFrom, hn.symm, hx']
  · rw [if_neg (fun h => h0 h.1), universalNewlines_line]
    · rw [List.append_assoc]
      simpa using read_join hd hn x xs [] cs
    · refine no_cr_join hr ?_
      intro s hs
      obtain ⟨y, hy, rfl⟩ := List.mem_map.mp hs
      exact no_cr_field (hcr y hy)

end

/-! ### Sorting by siglum -/

theorem insertByKey_perm (x : Str × List Token) : ∀ l, (insertByKey x l).Perm (x :: l)
  | [] => List.Perm.refl _
  | y :: ys => by
    unfold insertByKey
    split
    · exact ((insertByKey_perm x ys).cons y).trans (List.Perm.swap x y ys)
    · exact List.Perm.refl _

theorem sortedItems_perm : ∀ d : Dict Str (List Token), (sortedItems d).Perm d
  | [] => List.Perm.refl _
  | x :: xs => (insertByKey_perm x (sortedItems xs)).trans ((sortedItems_perm xs).cons x)

theorem insertByKey_sorted {x : Str × List Token} : ∀ {l : List (Str × List Token)},
    l.Pairwise (fun a b => strLt a.1 b.1 = true) → (∀ y ∈ l, y.1 ≠ x.1) →
    (insertByKey x l).Pairwise (fun a b => strLt a.1 b.1 = true)
  | [], _, _ => by simp [insertByKey]
  | y :: ys, h, hne => by
    rw [List.pairwise_cons] at h
    unfold insertByKey
    split
    · rename_i hlt
      rw [List.pairwise_cons]
      refine ⟨?_, insertByKey_sorted h.2 (fun z hz => hne z (by simp [hz]))⟩
      intro z hz
      rcases List.mem_cons.mp ((insertByKey_perm x ys).mem_iff.mp hz) with rfl | hz
      · exact hlt
      · exact h.1 z hz
    · rename_i hlt
      have hxy : strLt x.1 y.1 = true := by
        rcases strLt_total x.1 y.1 (fun e => hne y (by simp) e.symm) with h | h
        · exact h
        · exact absurd h hlt
      rw [List.pairwise_cons, List.pairwise_cons]
      refine ⟨?_, h⟩
      intro z hz
      rcases List.mem_cons.mp hz with rfl | hz
      · exact hxy
      · exact strLt_trans hxy (h.1 z hz)

theorem sortedItems_sorted : ∀ {d : Dict Str (List Token)}, (d.map Prod.fst).Nodup →
    (sortedItems d).Pairwise (fun a b => strLt a.1 b.1 = true)
  | [], _ => List.Pairwise.nil
  | x :: xs, h => by
    simp only [List.map_cons, List.nodup_cons] at h
    refine insertByKey_sorted (sortedItems_sorted h.2) ?_
    intro y hy e
    exact h.1 (List.mem_map.mpr ⟨y, (sortedItems_perm xs).mem_iff.mp hy, e⟩)

theorem sortedItems_nodup {d : Dict Str (List Token)} (h : (d.map Prod.fst).Nodup) : ((sortedItems d).map Prod.fst).Nodup :=
  (((sortedItems_perm d).map Prod.fst).nodup_iff).mpr h

theorem dget_sortedItems {d : Dict Str (List Token)} (h : (d.map Prod.fst).Nodup) {σ : Str} {ts : List Token} :
    (σ, ts) ∈ sortedItems d ↔ dget d σ = some ts := by
  rw [(sortedItems_perm d).mem_iff]
  exact (dget_iff_mem h).symm

/-! ### XML -/

theorem printed_iff {t : Token} {s : Str} : tokenTStr t = .ok s ↔ ∃ v, dget t.data .t = some v ∧ Printed v s := by
  unfold tokenTStr
  cases h : dget t.data .t with
  | none => simp
  | some v => cases v <;> simp [Printed, natStr_eq, eq_comm]

theorem xmlText_iff : ∀ {ts : List Token} {s : Str}, xmlText ts = .ok s ↔ PrintedText ts s
  | [], s => by
    simp only [xmlText, Except.ok.injEq, PrintedText]
    constructor
    · rintro rfl; exact ⟨[], .nil, rfl⟩
    · rintro ⟨l, h, rfl⟩
      cases h
      rfl
  | t :: ts, s => by
    unfold xmlText
    rw [bind_eq_ok]
    constructor
    · rintro ⟨a, ha, h⟩
      obtain ⟨b, hb, h⟩ := bind_eq_ok.mp h
      obtain ⟨l, hl, rfl⟩ := xmlText_iff.mp hb
      obtain rfl := Except.ok.inj h
      exact ⟨a :: l, .cons (printed_iff.mp ha) hl, rfl⟩
    · rintro ⟨l, h, rfl⟩
      cases h with
      | cons h1 h2 => exact ⟨_, printed_iff.mpr h1, bind_eq_ok.mpr ⟨_, xmlText_iff.mpr ⟨_, h2, rfl⟩, rfl⟩⟩

theorem xmlRdgs_ok : ∀ {l : List (Str × List Token)} {rdgs : List Rdg}, xmlRdgs l = .ok rdgs →
    List.Forall₂ (fun p r => r.wit = '#' :: p.1 ∧ PrintedText p.2 r.text) l rdgs
  | [], rdgs, h => by
    obtain rfl := Except.ok.inj h
    exact .nil
  | (k, v) :: l, rdgs, h => by
    unfold xmlRdgs at h
    obtain ⟨a, ha, h⟩ := bind_eq_ok.mp h
    obtain ⟨b, hb, h⟩ := bind_eq_ok.mp h
    obtain rfl := Except.ok.inj h
    exact .cons ⟨rfl, xmlText_iff.mp ha⟩ (xmlRdgs_ok hb)

theorem exportXml_ok : ∀ {cs : List Column} {apps : List (List Rdg)}, exportXml cs = .ok apps →
    List.Forall₂ (fun c rdgs => List.Forall₂ (fun p r => r.wit = '#' :: p.1 ∧ PrintedText p.2 r.text) (sortedItems c.tokens) rdgs)
      cs apps
  | [], apps, h => by
    obtain rfl := Except.ok.inj h
    exact .nil
  | c :: cs, apps, h => by
    unfold exportXml at h
    obtain ⟨a, ha, h⟩ := bind_eq_ok.mp h
    obtain ⟨b, hb, h⟩ := bind_eq_ok.mp h
    obtain rfl := Except.ok.inj h
    exact .cons (xmlRdgs_ok ha) (exportXml_ok hb)

theorem exists_exportXml {cs : List Column} (h : ∀ c ∈ cs, ∀ p ∈ c.tokens, ∃ s, PrintedText p.2 s) :
    ∃ apps, exportXml cs = .ok apps := by
  have h1 : ∀ l : List (Str × List Token), (∀ p ∈ l, ∃ s, PrintedText p.2 s) → ∃ r, xmlRdgs l = .ok r := by
    intro l
    induction l with
    | nil => intro _; exact ⟨[], rfl⟩
    | cons p l ih =>
      intro hl
      obtain ⟨r, hr⟩ := ih (fun p hp => hl p (by simp [hp]))
      obtain ⟨s, hs⟩ := hl p (by simp)
      obtain ⟨k, v⟩ := p
      have hs' : xmlText v = .ok s := xmlText_iff.mpr hs
      exact ⟨_, by simp only [xmlRdgs, hs', hr, bind_ok]; rfl⟩
  induction cs with
  | nil => exact ⟨[], rfl⟩
  | cons c cs ih =>
    obtain ⟨b, hb⟩ := ih (fun c hc => h c (by simp [hc]))
    obtain ⟨a, ha⟩ := h1 (sortedItems c.tokens) (fun p hp => h c (by simp) p ((sortedItems_perm _).mem_iff.mp hp))
    exact ⟨a :: b, by simp only [exportXml, ha, hb, bind_ok]⟩

theorem printedText_of_textOf {ts : List Token} {s : Str} (h : TextOf ts s) : PrintedText ts s := by
  obtain ⟨l, hl, rfl⟩ := h
  refine ⟨l, ?_, rfl⟩
  induction ts generalizing l with
  | nil => cases l with
    | nil => exact .nil
    | cons => simp at hl
  | cons t ts ih =>
    cases l with
    | nil => simp at hl
    | cons a l =>
      simp only [List.map_cons, List.cons.injEq] at hl
      exact .cons ⟨_, hl.1, rfl⟩ (ih l hl.2)

/-! ### White space -/

theorem strip_spec (cc : CharClass) (s : Str) : Stripped cc s (strip cc s) := by
  unfold strip
  obtain ⟨⟨b, hb, hbs⟩, hl⟩ := rstrip_spec cc (s.dropWhile cc.space)
  refine ⟨⟨s.takeWhile cc.space, b, ?_, ?_, hbs⟩, ?_, hl⟩
  · rw [List.append_assoc, ← hb, List.takeWhile_append_dropWhile]
  · intro c hc
    have := List.all_takeWhile (p := cc.space) (l := s)
    rw [List.all_eq_true] at this
    exact this c hc
  · intro c hc
    have h1 : (s.dropWhile cc.space).head? = some c := by
      rw [hb]
      cases h : rstrip cc (s.dropWhile cc.space) with
      | nil => rw [h] at hc; cases hc
      | cons x xs => rw [h] at hc; simpa using hc
    have := List.head?_dropWhile_not cc.space s
    rw [h1] at this
    simpa using this

theorem stripped_unique {cc : CharClass} {s n m : Str} (h : Stripped cc s n) (h' : Stripped cc s m) : n = m := by
  have hdrop : ∀ {n : Str}, Stripped cc s n → rstrip cc (s.dropWhile cc.space) = n := by
    rintro n ⟨⟨a, b, rfl, ha, hb⟩, hh, hl⟩
    symm
    by_cases hn : n = []
    · subst hn
      have : ((a ++ [] ++ b).dropWhile cc.space) = [] := by
        have hall : ∀ l : Str, (∀ c ∈ l, cc.space c = true) → l.dropWhile cc.space = [] := by
          intro l
          induction l with
          | nil => simp
          | cons c l ih => intro h; rw [List.dropWhile_cons_of_pos (h c (by simp)), ih (fun c hc => h c (by simp [hc]))]
        apply hall
        intro c hc
        simp only [List.append_nil, List.mem_append] at hc
        rcases hc with hc | hc
        · exact ha c hc
        · exact hb c hc
      rw [this]
      rfl
    · apply rstrip_unique
      have : (a ++ n ++ b).dropWhile cc.space = n ++ b := by
        rw [List.append_assoc, List.dropWhile_append_of_pos ha]
        cases n with
        | nil => exact absurd rfl hn
        | cons c n =>
          have := hh c rfl
          simp [this]
      rw [this]
      exact ⟨⟨b, rfl, hb⟩, hl⟩
  rw [← hdrop h, ← hdrop h']

theorem squeeze_stripped {cc : CharClass} {s n : Str} (h : Stripped cc s n) : squeeze cc s = squeeze cc n := by
  obtain ⟨⟨a, b, rfl, ha, hb⟩, _⟩ := h
  unfold squeeze
  have e : ∀ l : Str, (∀ c ∈ l, cc.space c = true) → l.filter (fun c => !cc.space c) = [] := by
    intro l hl
    rw [List.filter_eq_nil_iff]
    intro c hc
    simp [hl c hc]
  rw [List.filter_append, List.filter_append, e a ha, e b hb]
  simp

theorem squeeze_append (cc : CharClass) (a b : Str) : squeeze cc (a ++ b) = squeeze cc a ++ squeeze cc b := by
  simp [squeeze]

/-! ### The `wit` attribute -/

theorem splitBlanks_ne_nil (s : Str) : splitBlanks s ≠ [] := by
  cases s with
  | nil => simp [splitBlanks]
  | cons c cs =>
    unfold splitBlanks
    split
    · simp
    · split <;> simp

theorem splitBlanks_word : ∀ {w : Str}, ' ' ∉ w → splitBlanks w = [w]
  | [], _ => rfl
  | c :: w, h => by
    simp only [List.mem_cons, not_or] at h
    unfold splitBlanks
    rw [if_neg (fun e => h.1 e.symm), splitBlanks_word h.2]

theorem splitBlanks_append : ∀ {w : Str} (s : Str), ' ' ∉ w → splitBlanks (w ++ ' ' :: s) = w :: splitBlanks s
  | [], s, _ => by simp [splitBlanks]
  | c :: w, s, h => by
    simp only [List.mem_cons, not_or] at h
    rw [List.cons_append, splitBlanks, if_neg (fun e => h.1 e.symm), splitBlanks_append s h.2]

theorem splitBlanks_witAttr : ∀ {l : List Str}, l ≠ [] → (∀ σ ∈ l, ' ' ∉ σ) → splitBlanks (witAttr l) = l.map ('#' :: ·)
  | [], h, _ => absurd rfl h
  | [σ], _, h => by
    have : ' ' ∉ '#' :: σ := by simpa using h σ (by simp)
    simp only [witAttr, splitBlanks_word this, List.map_cons, List.map_nil]
  | σ :: τ :: l, _, h => by
    have h1 : ' ' ∉ '#' :: σ := by simpa using h σ (by simp)
    have ih := splitBlanks_witAttr (l := τ :: l) (by simp) (fun x hx => h x (by simp at hx ⊢; tauto))
    rw [witAttr, splitBlanks_append _ h1, ih]
    · rfl
    · simp

theorem lists_witAttr {l : List Str} (hne : l ≠ []) (h : ∀ σ ∈ l, ' ' ∉ σ) {x σ : Str} :
    Lists ⟨witAttr l, x⟩ σ ↔ σ ∈ l := by
  unfold Lists
  rw [splitBlanks_witAttr hne h]
  simp

/-! ### TEI -/

/-- The readings of a list of items. -/
def ReadingsOf (l : List (Str × List Token)) (rs : List (Str × Str)) : Prop :=
  List.Forall₂ (fun p q => q.1 = p.1 ∧ TextOf p.2 q.2) l rs

theorem teiGroup_ok (cc : CharClass) : ∀ {l : List (Str × List Token)} {d0 d : Dict Str (List Str)} {w0 w : Bool},
    teiGroup cc l d0 w0 = .ok (d, w) → ∃ rs, ReadingsOf l rs ∧
      (∀ k, (dget d k).getD [] = (dget d0 k).getD [] ++ (rs.filter (fun q => strip cc q.2 = k)).map Prod.fst) ∧
      ((d0.map Prod.fst).Nodup → (d.map Prod.fst).Nodup) ∧
      (∀ k, k ∈ d.map Prod.fst ↔ k ∈ d0.map Prod.fst ∨ ∃ q ∈ rs, strip cc q.2 = k) ∧
      (w = (w0 || rs.any (fun q => endsWs q.2)))
  | [], d0, d, w0, w, h => by
    have := Except.ok.inj h
    simp only [Prod.mk.injEq] at this
    obtain ⟨rfl, rfl⟩ := this
    exact ⟨[], .nil, by simp, by simp, by simp, by simp⟩
  | (k0, v) :: l, d0, d, w0, w, h => by
    unfold teiGroup at h
    obtain ⟨s, hs, h⟩ := bind_eq_ok.mp h
    obtain ⟨rs, h1, h2, h3, h4, h5⟩ := teiGroup_ok cc h
    refine ⟨(k0, s) :: rs, .cons ⟨rfl, cellText_iff.mp hs⟩ h1, ?_, ?_, ?_, ?_⟩
    · intro k
      rw [h2 k, dget_setdefaultAppend]
      by_cases hk : strip cc s = k
      · subst hk
        simp
      · rw [if_neg hk, List.filter_cons_of_neg (by simpa using hk)]
    · intro hnd
      apply h3
      rw [keys_setdefaultAppend]
      split
      · exact hnd
      · rename_i hn
        rw [List.nodup_append]
        exact ⟨hnd, by simp, fun a ha b hb e => by simp at hb; subst hb; subst e; exact hn ha⟩
    · intro k
      rw [h4 k, keys_setdefaultAppend]
      simp only [List.mem_cons, exists_eq_or_imp]
      split
      · rename_i hm
        constructor
        · rintro (h | h)
          · exact Or.inl h
          · exact Or.inr (Or.inr h)
        · rintro (h | h | h)
          · exact Or.inl h
          · subst h; exact Or.inl hm
          · exact Or.inr h
      · simp only [List.mem_append, List.mem_singleton]
        constructor
        · rintro ((h | h) | h)
          · exact Or.inl h
          · exact Or.inr (Or.inl h.symm)
          · exact Or.inr (Or.inr h)
        · rintro (h | h | h)
          · exact Or.inl (Or.inl h)
          · exact Or.inl (Or.inr h.symm)
          · exact Or.inr h
    · rw [h5]
      simp only [List.any_cons]
      cases w0 <;> cases endsWs s <;> simp

theorem exists_teiGroup (cc : CharClass) : ∀ {l : List (Str × List Token)} (d0 : Dict Str (List Str)) (w0 : Bool),
    (∀ p ∈ l, ∃ s, TextOf p.2 s) → ∃ r, teiGroup cc l d0 w0 = .ok r
  | [], _, _, _ => ⟨_, rfl⟩
  | (k0, v) :: l, d0, w0, h => by
    obtain ⟨s, hs⟩ := h (k0, v) (by simp)
    obtain ⟨r, hr⟩ := exists_teiGroup cc (l := l) (setdefaultAppend d0 (strip cc s) k0)
      (if w0 = false && endsWs s then true else w0) (fun p hp => h p (by simp [hp]))
    exact ⟨r, by rw [teiGroup, cellText_iff.mpr hs]; exact hr⟩

theorem exists_exportTei (cc : CharClass) {t : Table} (h : ∀ c ∈ t.columns, ∀ p ∈ c.tokens, ∃ s, TextOf p.2 s) :
    ∃ nodes, exportTei cc t = .ok nodes := by
  unfold exportTei
  generalize t.rows.length = n
  generalize t.columns = cs at h
  induction cs with
  | nil => exact ⟨[], rfl⟩
  | cons c cs ih =>
    obtain ⟨b, hb⟩ := ih (fun c hc => h c (by simp [hc]))
    obtain ⟨⟨d, w⟩, hr⟩ := exists_teiGroup cc [] false
      (fun p hp => h c (by simp) p ((sortedItems_perm c.tokens).mem_iff.mp hp))
    exact ⟨_, by simp only [teiColumns, teiColumn, hr, hb, bind_ok]; rfl⟩

/-- The node for the groups of readings of a column. -/
def teiMain (n : Nat) (d : Dict Str (List Str)) : TeiNode :=
  match d with
  | [(k, v)] => if v.length = n then .text k else .app [⟨witAttr v, k⟩]
  | d => .app (d.map (fun p => ⟨witAttr p.2, p.1⟩))

theorem teiColumns_ok (cc : CharClass) (n : Nat) : ∀ {cs : List Column} {nodes : List TeiNode},
    teiColumns cc n cs = .ok nodes → ∃ pieces, nodes = flatPieces pieces ∧
      List.Forall₂ (fun c p => ∃ d, teiGroup cc (sortedItems c.tokens) [] false = .ok (d, p.2) ∧ p.1 = teiMain n d) cs pieces
  | [], nodes, h => by
    obtain rfl := Except.ok.inj h
    exact ⟨[], rfl, .nil⟩
  | c :: cs, nodes, h => by
    unfold teiColumns at h
    obtain ⟨a, ha, h⟩ := bind_eq_ok.mp h
    obtain ⟨b, hb, h⟩ := bind_eq_ok.mp h
    obtain rfl := Except.ok.inj h
    obtain ⟨pieces, rfl, hp⟩ := teiColumns_ok cc n hb
    unfold teiColumn at ha
    obtain ⟨⟨d, w⟩, hd, ha⟩ := bind_eq_ok.mp ha
    obtain rfl := Except.ok.inj ha
    exact ⟨(teiMain n d, w) :: pieces, by simp only [flatPieces, List.flatMap_cons]; rfl, .cons ⟨d, hd, rfl⟩ hp⟩

/-- `teiMain` is text only for a single group of all witnesses. -/
theorem teiMain_cases (n : Nat) (d : Dict Str (List Str)) :
    (∃ k v, d = [(k, v)] ∧ v.length = n ∧ teiMain n d = .text k) ∨
    (teiMain n d = .app (d.map (fun p => ⟨witAttr p.2, p.1⟩)) ∧ ∀ k v, d = [(k, v)] → v.length ≠ n) := by
  unfold teiMain
  split
  · rename_i k v
    split
    · rename_i h; exact Or.inl ⟨k, v, rfl, h, rfl⟩
    · rename_i h
      refine Or.inr ⟨rfl, ?_⟩
      intro k' v' e
      simp only [List.cons.injEq, Prod.mk.injEq, and_true] at e
      rw [← e.2]; exact h
  · rename_i h
    exact Or.inr ⟨rfl, fun k v e => absurd e (h k v)⟩

end CollateX
