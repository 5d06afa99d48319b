import Verif.Proofs.Tokenizer
import Verif.Proofs.Dict
/-
Properties of the input side: C01–C04.
-/

namespace CollateX
open Spec

/-- C01. Whatever text is given to `add_plain_witness`, the `t` values of the tokens of the new witness, read in order, give back the
text, and none of them is empty. -/
theorem C01_plain_text_lossless (cc : CharClass) (c : Collation) (sigil text : Str) :
    ∃ (w : Witness) (ts : List Str), addPlainWitness cc c sigil text = .ok (c ++ [w]) ∧ w.sigil = sigil ∧
      w.tokens.map (fun t => dget t.data .t) = ts.map (fun s => some (JVal.str s)) ∧
      ts.flatten = text ∧ ∀ s ∈ ts, s ≠ [] := by
  have h := tokenizeF_isTokenisation cc text.length text (Nat.le_refl _)
  refine ⟨⟨sigil, (tokenize cc text).map (plainToken cc)⟩, tokenize cc text, rfl, rfl, ?_, h.lossless, ?_⟩
  · simp [plainToken, dget]
  · exact fun s hs => tok_ne_nil (h.shape s hs)

/-- C01 is not vacuous: a text with words, white space and punctuation. -/
example : addPlainWitness asciiClass [] (S "A") (S "Hi, you") =
    .ok [⟨S "A", [⟨S "Hi", [(.t, .str (S "Hi")), (.n, .str (S "Hi"))]⟩,
                  ⟨S ",", [(.t, .str (S ", ")), (.n, .str (S ","))]⟩,
                  ⟨S "you", [(.t, .str (S "you")), (.n, .str (S "you"))]⟩]⟩] := by
  decide +kernel

/-- C02. The tokens are exactly the canonical tokenisation of the text: runs of word characters with the white space that
follows, and runs of other characters, cut only where they have to be; no other list of strings is one. -/
theorem C02_token_boundaries_canonical (cc : CharClass) (text : Str) (ts : List Str) :
    Tokenisation cc text ts ↔ ts = tokenize cc text := by
  constructor
  · exact fun h => (tokenizeF_unique cc text.length text (Nat.le_refl _) ts h).symm
  · rintro rfl
    exact tokenizeF_isTokenisation cc text.length text (Nat.le_refl _)

/-- C02, seen from `add_plain_witness`: the `t` values form the canonical tokenisation. -/
theorem C02_witness_tokens_canonical (cc : CharClass) (c : Collation) (sigil text : Str) :
    ∃ (w : Witness) (ts : List Str), addPlainWitness cc c sigil text = .ok (c ++ [w]) ∧
      w.tokens.map (fun t => dget t.data .t) = ts.map (fun s => some (JVal.str s)) ∧
      Tokenisation cc text ts ∧ ∀ us, Tokenisation cc text us → us = ts := by
  refine ⟨⟨sigil, (tokenize cc text).map (plainToken cc)⟩, tokenize cc text, rfl, ?_,
    (C02_token_boundaries_canonical cc text _).mpr rfl, fun us h => (C02_token_boundaries_canonical cc text us).mp h⟩
  simp [plainToken, dget]

example : Tokenisation asciiClass (S "a b; c") [S "a ", S "b", S "; ", S "c"] := by
  have : [S "a ", S "b", S "; ", S "c"] = tokenize asciiClass (S "a b; c") := by decide +kernel
  exact (C02_token_boundaries_canonical _ _ _).mpr this

/-- C03. In a plain-text witness the `n` value, which is also the string used for matching, is the `t` value
with exactly its trailing white space removed. -/
theorem C03_normalised_form (cc : CharClass) (c : Collation) (sigil text : Str) :
    ∃ w : Witness, addPlainWitness cc c sigil text = .ok (c ++ [w]) ∧
      ∀ tok ∈ w.tokens, ∃ t n, dget tok.data .t = some (.str t) ∧ dget tok.data .n = some (.str n) ∧
        tok.str = n ∧ TrailingSpaceRemoved cc t n ∧ (∀ n', TrailingSpaceRemoved cc t n' → n' = n) := by
  refine ⟨⟨sigil, (tokenize cc text).map (plainToken cc)⟩, rfl, ?_⟩
  intro tok h
  obtain ⟨s, -, rfl⟩ := List.mem_map.mp h
  exact ⟨s, rstrip cc s, by simp [plainToken, dget], by simp [plainToken, dget], rfl, rstrip_spec cc s,
    fun n' h => rstrip_unique cc s n' h⟩

/-- C03, second half: no character other than white space is lost by normalisation. -/
theorem C03_non_space_survives (cc : CharClass) (c : Collation) (sigil text : Str) :
    ∃ w : Witness, addPlainWitness cc c sigil text = .ok (c ++ [w]) ∧
      ((w.tokens.map Token.str).flatten.filter (fun ch => !cc.space ch)) = text.filter (fun ch => !cc.space ch) := by
  refine ⟨⟨sigil, (tokenize cc text).map (plainToken cc)⟩, rfl, ?_⟩
  have h := (tokenizeF_isTokenisation cc text.length text (Nat.le_refl _)).lossless
  have key : ∀ ts : List Str,
      (((ts.map (plainToken cc)).map Token.str).flatten).filter (fun ch => !cc.space ch)
        = ts.flatten.filter (fun ch => !cc.space ch) := by
    intro ts
    induction ts with
    | nil => rfl
    | cons t ts ih =>
      simp only [List.map_cons, List.flatten_cons, List.filter_append, ih]
      congr 1
      obtain ⟨⟨b, hb, hs⟩, -⟩ := rstrip_spec cc t
      have e : (plainToken cc t).str = rstrip cc t := rfl
      rw [e]
      conv_rhs => rw [hb]
      rw [List.filter_append]
      have : b.filter (fun ch => !cc.space ch) = [] := by
        rw [List.filter_eq_nil_iff]
        intro a ha
        simp [hs a ha]
      rw [this, List.append_nil]
  rw [key]
  conv_rhs => rw [← h]
  rfl

example : addPlainWitness asciiClass [] (S "A") (S "a \n") =
    .ok [⟨S "A", [⟨S "a", [(.t, .str (S "a \n")), (.n, .str (S "a"))]⟩]⟩] := by decide +kernel

/-! ### C04 -/

/-- What the token string of a record has to be. -/
def SpecTokenString (d : TokenData) (v : JVal) : Prop :=
  dget d .n = some v ∨ (dget d .n = none ∧ dget d .t = some v)

theorem tokenString_ok_iff {d : TokenData} {v : JVal} : tokenString d = .ok v ↔ SpecTokenString d v := by
  unfold tokenString SpecTokenString
  cases dget d .n <;> cases dget d .t <;> simp

theorem tokenString_error_iff {d : TokenData} {e : PyErr} :
    tokenString d = .error e ↔ e = .tokenError ∧ dget d .n = none ∧ dget d .t = none := by
  unfold tokenString
  cases dget d .n <;> cases dget d .t <;> simp [eq_comm]

theorem tokenValues_error_iff {ds : List TokenData} {e : PyErr} :
    tokenValues ds = .error e ↔ e = .tokenError ∧ ∃ d ∈ ds, dget d .n = none ∧ dget d .t = none := by
  induction ds with
  | nil => simp [tokenValues]
  | cons d ds ih =>
    cases h : tokenString d with
    | error e' =>
      have := tokenString_error_iff.mp h
      simp [tokenValues, h, bind, Except.bind, this.1, this.2.1, this.2.2, eq_comm]
    | ok v =>
      have hn : ¬ (dget d .n = none ∧ dget d .t = none) := by
        rcases tokenString_ok_iff.mp h with h | h <;> simp [h]
      cases h2 : tokenValues ds with
      | error e' =>
        have := ih
        rw [h2] at this
        simp only [tokenValues, h, h2, bind, Except.bind, this]
        simp only [List.mem_cons, exists_eq_or_imp, hn, false_or]
      | ok vs =>
        have h3 : ¬ (e = .tokenError ∧ ∃ d ∈ ds, dget d .n = none ∧ dget d .t = none) := by
          rw [← ih, h2]; simp
        simp only [tokenValues, h, h2, bind, Except.bind]
        simp only [List.mem_cons, exists_eq_or_imp, hn, false_or, h3, iff_false]
        simp

theorem tokenValues_ok {ds : List TokenData} {vs : List (JVal × TokenData)} (h : tokenValues ds = .ok vs) :
    vs.map Prod.snd = ds ∧ ∀ p ∈ vs, SpecTokenString p.2 p.1 := by
  induction ds generalizing vs with
  | nil => simp [tokenValues] at h; subst h; simp
  | cons d ds ih =>
    simp only [tokenValues] at h
    obtain ⟨v, hv, h⟩ := bind_eq_ok.mp h
    obtain ⟨us, hus, h⟩ := bind_eq_ok.mp h
    injection h with h; subst h
    have := ih hus
    refine ⟨by simp [this.1], ?_⟩
    intro p hp
    rcases List.mem_cons.mp hp with rfl | hp
    · exact tokenString_ok_iff.mp hv
    · exact this.2 p hp

theorem joinable_ok {vs : List (JVal × TokenData)} {ts : List Token} (h : joinable vs = .ok ts) :
    vs = ts.map (fun t => (JVal.str t.str, t.data)) := by
  induction vs generalizing ts with
  | nil => simp [joinable] at h; subst h; rfl
  | cons p vs ih =>
    obtain ⟨v, d⟩ := p
    cases v with
    | str s =>
      simp only [joinable] at h
      obtain ⟨us, hus, h⟩ := bind_eq_ok.mp h
      injection h with h; subst h
      simp [ih hus]
    | nat n => simp [joinable] at h
    | raw r => simp [joinable] at h

theorem joinable_error {vs : List (JVal × TokenData)} {e : PyErr} (h : joinable vs = .error e) : e = .typeError := by
  induction vs with
  | nil => simp [joinable] at h
  | cons p vs ih =>
    obtain ⟨v, d⟩ := p
    cases v with
    | str s =>
      simp only [joinable] at h
      cases h2 : joinable vs with
      | ok us => rw [h2] at h; simp [bind, Except.bind] at h
      | error e' =>
        rw [h2] at h ih
        simp [bind, Except.bind] at h
        exact h ▸ ih (by rw [h])
    | nat n => simp [joinable] at h; exact h.symm
    | raw r => simp [joinable] at h; exact h.symm

/-- A call of `add_witness` whose exception, if any, is caught. -/
def addTry (cc : CharClass) (c : Collation) (w : WitnessData) : Collation :=
  match addWitness cc c w with
  | .ok c' => c'
  | .error _ => c

/-- C04 (a). Whatever history of (possibly failing) additions, the collation holds exactly the witnesses of the
successful additions, in the order of the calls. -/
theorem C04_history (cc : CharClass) (c : Collation) (hist : List WitnessData) :
    hist.foldl (addTry cc) c = c ++ hist.filterMap (fun w => (mkWitness cc w).toOption) := by
  induction hist generalizing c with
  | nil => simp
  | cons w hist ih =>
    rw [List.foldl_cons, ih]
    unfold addTry addWitness
    cases h : mkWitness cc w with
    | error e => simp [bind, Except.bind, Except.toOption, h]
    | ok w' => simp [bind, Except.bind, Except.toOption, h]

/-- C04 (b). Adding a pre-tokenised witness raises TokenError exactly when some token record has neither `n` nor `t`. -/
theorem C04_token_error (cc : CharClass) (c : Collation) (id : Str) (ds : List TokenData) :
    addWitness cc c { id := some id, tokens := some ds } = .error .tokenError ↔
      ∃ d ∈ ds, dget d .n = none ∧ dget d .t = none := by
  have key := tokenValues_error_iff (ds := ds) (e := .tokenError)
  simp only [true_and] at key
  rw [← key]
  unfold addWitness mkWitness
  cases h : tokenValues ds with
  | error e => simp [bind, Except.bind, h]
  | ok vs =>
    cases h2 : joinable vs with
    | error e => have := joinable_error h2; subst this; simp [bind, Except.bind, h, h2]
    | ok ts => simp [bind, Except.bind, h, h2]

/-- C04 (c). A successfully added pre-tokenised witness has the given siglum and the given records in the given order, and each
token's matching string is its `n` if there is one and otherwise its `t`. -/
theorem C04_tokens (cc : CharClass) (c c' : Collation) (id : Str) (ds : List TokenData)
    (h : addWitness cc c { id := some id, tokens := some ds } = .ok c') :
    ∃ w, c' = c ++ [w] ∧ w.sigil = id ∧ w.tokens.map Token.data = ds ∧
      ∀ t ∈ w.tokens, SpecTokenString t.data (.str t.str) := by
  unfold addWitness mkWitness at h
  obtain ⟨w, hw, h⟩ := bind_eq_ok.mp h
  injection h with h
  simp only at hw
  obtain ⟨vs, hvs, hw⟩ := bind_eq_ok.mp hw
  obtain ⟨ts, hts, hw⟩ := bind_eq_ok.mp hw
  injection hw with hw
  have h1 := tokenValues_ok hvs
  have h2 := joinable_ok hts
  subst hw
  refine ⟨_, h.symm, rfl, ?_, ?_⟩
  · rw [← h1.1, h2, List.map_map]; rfl
  · intro t ht
    have := h1.2 (.str t.str, t.data) (by rw [h2]; exact List.mem_map.mpr ⟨t, ht, rfl⟩)
    exact this

/-- C04 (d). Building from a dict adds the witnesses one by one: it can be split anywhere, and it succeeds with exactly one
witness per record, in order; a limit keeps a prefix of the records. -/
theorem C04_from_dict (cc : CharClass) (ws : List WitnessData) (limit : Nat) :
    (∀ c xs ys, addWitnesses cc c (xs ++ ys) = (addWitnesses cc c xs >>= fun c' => addWitnesses cc c' ys)) ∧
    createFromDict cc ws (some limit) = createFromDict cc (ws.take limit) none ∧
    (∀ c, createFromDict cc ws none = .ok c → c.map (fun w => some w.sigil) = ws.map WitnessData.id) := by
  refine ⟨?_, rfl, ?_⟩
  · intro c xs ys
    induction xs generalizing c with
    | nil => rfl
    | cons x xs ih =>
      simp only [List.cons_append, addWitnesses]
      cases h : addWitness cc c x with
      | error e => rfl
      | ok c' => simp only [bind_ok, ih]
  · intro c h
    have : ∀ (ws : List WitnessData) (c0 c : Collation), addWitnesses cc c0 ws = .ok c →
        c.map (fun w => some w.sigil) = c0.map (fun w => some w.sigil) ++ ws.map WitnessData.id := by
      intro ws
      induction ws with
      | nil => intro c0 c h; simp [addWitnesses] at h; simp [h]
      | cons x xs ih =>
        intro c0 c h
        simp only [addWitnesses] at h
        obtain ⟨c1, h1, h2⟩ := bind_eq_ok.mp h
        rw [ih c1 c h2]
        unfold addWitness at h1
        obtain ⟨w, hw, h1⟩ := bind_eq_ok.mp h1
        injection h1 with h1
        subst h1
        have : some w.sigil = x.id := by
          unfold mkWitness at hw
          split at hw
          · simp at hw
          · rename_i id hid
            rw [hid]
            split at hw
            · simp at hw; rw [← hw]
            · split at hw
              · obtain ⟨_, _, hw⟩ := bind_eq_ok.mp hw
                obtain ⟨_, _, hw⟩ := bind_eq_ok.mp hw
                simp at hw; rw [← hw]
              · simp at hw; rw [← hw]
        simp [this]
    simpa using this ws [] c h

/-- C04 is not vacuous: one good and one bad record. -/
example : addWitness asciiClass [] { id := some (S "A"), tokens := some [[(.t, .str (S "x"))], [(.other (S "u"), .nat 1)]] }
    = .error .tokenError := by decide +kernel

example : addWitness asciiClass [] { id := some (S "A"), tokens := some [[(.t, .str (S "X")), (.n, .str (S "x"))]] }
    = .ok [⟨S "A", [⟨S "x", [(.t, .str (S "X")), (.n, .str (S "x"))]⟩]⟩] := by decide +kernel

end CollateX
