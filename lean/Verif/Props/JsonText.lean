import Verif.Proofs.JsonText
import Verif.Props.SuffixArray
import Verif.Props.Export
/-
C72: the text of the JSON output can be read back.
-/

namespace CollateX

open Spec

theorem insertEntry_perm (x : Str × Json) : ∀ l, (insertEntry x l).Perm (x :: l)
  | [] => List.Perm.refl _
  | y :: ys => by
    unfold insertEntry
    split
    · exact List.Perm.refl _
    · exact ((insertEntry_perm x ys).cons y).trans (List.Perm.swap x y ys)

theorem insertEntry_sorted (x : Str × Json) : ∀ {l : List (Str × Json)}, l.Pairwise (fun a b => ¬ StrLt b.1 a.1) →
    (insertEntry x l).Pairwise (fun a b => ¬ StrLt b.1 a.1)
  | [], _ => by simp [insertEntry]
  | y :: ys, h => by
    have h' := List.pairwise_cons.mp h
    have hlt : ∀ a b : Str, StrLt a b → ¬ StrLt b a := by
      intro a b h1 h2
      rw [← strLt_iff] at h1 h2
      have := strLt_trans h1 h2
      rw [strLt_irrefl] at this
      cases this
    unfold insertEntry
    split
    · rename_i hxy
      rw [strLt_iff] at hxy
      refine List.pairwise_cons.mpr ⟨?_, h⟩
      intro z hz
      rcases List.mem_cons.mp hz with rfl | hz
      · exact hlt _ _ hxy
      · intro hzx
        refine h'.1 z hz ?_
        rw [← strLt_iff] at hxy hzx ⊢
        exact strLt_trans hzx hxy
    · rename_i hxy
      rw [strLt_iff] at hxy
      refine List.pairwise_cons.mpr ⟨?_, insertEntry_sorted x h'.2⟩
      intro z hz
      rcases List.mem_cons.mp ((insertEntry_perm x ys).mem_iff.mp hz) with rfl | hz
      · exact hxy
      · exact h'.1 z hz

/-- The entries before they are sorted. -/
def rawEntries : List (Str × Json) → List (Str × Json)
  | [] => []
  | (k, v) :: l => (k, v.sortKeys) :: rawEntries l

theorem sortKeysEntries_perm : ∀ l, (sortKeysEntries l).Perm (rawEntries l)
  | [] => by rw [sortKeysEntries, rawEntries]
  | (k, v) :: l => by
    rw [sortKeysEntries, rawEntries]
    exact (insertEntry_perm _ _).trans ((sortKeysEntries_perm l).cons _)

theorem sortKeysEntries_sorted : ∀ l, (sortKeysEntries l).Pairwise (fun a b => ¬ StrLt b.1 a.1)
  | [] => by rw [sortKeysEntries]; exact .nil
  | (k, v) :: l => by
    rw [sortKeysEntries]
    exact insertEntry_sorted _ (sortKeysEntries_sorted l)

theorem rawEntries_eq : ∀ l, rawEntries l = l.map (fun e => (e.1, e.2.sortKeys))
  | [] => rfl
  | (k, v) :: l => by rw [rawEntries, rawEntries_eq l]; rfl

theorem sortKeysList_eq : ∀ l, sortKeysList l = l.map Json.sortKeys
  | [] => by rw [sortKeysList]; rfl
  | v :: l => by rw [sortKeysList, sortKeysList_eq l]; rfl

mutual
theorem sameValue_sortKeys : ∀ v : Json, SameValue v.sortKeys v
  | .null => by rw [Json.sortKeys]; exact .null; all_goals simp
  | .bool b => by rw [Json.sortKeys]; exact .bool b; all_goals simp
  | .int i => by rw [Json.sortKeys]; exact .int i; all_goals simp
  | .str s => by rw [Json.sortKeys]; exact .str s; all_goals simp
  | .arr l => by rw [Json.sortKeys]; exact .arr (sameValues_sortKeys l)
  | .obj l => by
    rw [Json.sortKeys]
    refine .obj (sortKeysEntries_perm l) ?_ ?_
    · rw [rawEntries_eq, List.map_map]
      rfl
    · exact sameEntries_sortKeys l
theorem sameValues_sortKeys : ∀ l : List Json, List.Forall₂ SameValue (sortKeysList l) l
  | [] => by rw [sortKeysList]; exact .nil
  | v :: l => by rw [sortKeysList]; exact .cons (sameValue_sortKeys v) (sameValues_sortKeys l)
theorem sameEntries_sortKeys : ∀ l : List (Str × Json), List.Forall₂ SameValue ((rawEntries l).map Prod.snd) (l.map Prod.snd)
  | [] => .nil
  | (k, v) :: l => .cons (sameValue_sortKeys v) (sameEntries_sortKeys l)
end

/-- C72 for any value: the written text reads back as the same value, but for the order of the entries of dicts. -/
theorem C72_dumps (indent : Option Nat) (v : Json) : ∃ w, readJson (jsonDumps indent v) = some w ∧ SameValue w v :=
  ⟨v.sortKeys, readJson_text indent _ 0, sameValue_sortKeys v⟩

theorem keyIs_name (k : Key) : KeyIs k k.name := by
  cases k with
  | t => exact .t
  | n => exact .n
  | sigil => exact .sigil
  | pos => exact .pos
  | other s => exact .other s

theorem recordJson_reads (raw : Str → Json) (d : TokenData) : ReadsRecord raw d (recordJson raw d).sortKeys := by
  unfold recordJson
  rw [Json.sortKeys]
  refine ⟨_, _, rfl, sortKeysEntries_sorted _, sortKeysEntries_perm _, ?_⟩
  rw [rawEntries_eq, List.map_map, List.forall₂_map_right_iff]
  refine List.forall₂_same.mpr (fun e _ => ⟨keyIs_name _, ?_⟩)
  show ReadsValue raw e.2 (e.2.json raw).sortKeys
  cases e.2 with
  | str s => simp [JVal.json, ReadsValue, Json.sortKeys]
  | nat n => simp [JVal.json, ReadsValue, Json.sortKeys]
  | raw r => exact sameValue_sortKeys _

theorem cellJson_reads (raw : Str → Json) (c : Option (List TokenData)) : ReadsCell raw c (cellJson raw c).sortKeys := by
  cases c with
  | none => simp [cellJson, ReadsCell, Json.sortKeys]
  | some ds =>
    unfold cellJson
    rw [Json.sortKeys, sortKeysList_eq, List.map_map]
    refine ⟨_, rfl, ?_⟩
    rw [List.forall₂_map_right_iff]
    exact List.forall₂_same.mpr (fun d _ => recordJson_reads raw d)

theorem sortKeys_arr {α : Type} (f : α → Json) (hf : ∀ a, (f a).sortKeys = f a) (l : List α) : (Json.arr (l.map f)).sortKeys = .arr (l.map f) := by
  rw [Json.sortKeys, sortKeysList_eq, List.map_map]
  congr 1
  exact List.map_congr_left (fun a _ => hf a)

/-- C72. The text of the JSON output, with or without indentation, is a JSON text; reading it gives a dict with the sigla under
`witnesses`, under `table` the cells of the table, each either `null` or the records of its tokens in order, and the status of the columns, if
asked for, under `status`. -/
theorem C72_json_text (raw : Str → Json) (indent : Option Nat) (t : JsonTable) :
    ∃ fields rows, readJson (t.text raw indent) = some (.obj fields) ∧
      fields.map Prod.fst = (if t.status = none then [] else [S "status"]) ++ [S "table", S "witnesses"] ∧
      (S "table", Json.arr rows) ∈ fields ∧ (S "witnesses", Json.arr (t.witnesses.map .str)) ∈ fields ∧
      (∀ bs, t.status = some bs → (S "status", Json.arr (bs.map .bool)) ∈ fields) ∧
      List.Forall₂ (fun row v => ∃ cells, v = Json.arr cells ∧ List.Forall₂ (ReadsCell raw) row cells) t.table rows := by
  have htable : (Json.arr (t.table.map fun row => Json.arr (row.map (cellJson raw)))).sortKeys =
      .arr (t.table.map fun row => .arr (row.map fun c => (cellJson raw c).sortKeys)) := by
    rw [Json.sortKeys, sortKeysList_eq, List.map_map]
    congr 1
    refine List.map_congr_left (fun row _ => ?_)
    show (Json.arr _).sortKeys = _
    rw [Json.sortKeys, sortKeysList_eq, List.map_map]
    rfl
  have hwit : (Json.arr (t.witnesses.map Json.str)).sortKeys = .arr (t.witnesses.map .str) :=
    sortKeys_arr _ (fun s => by simp [Json.sortKeys]) _
  have hrows : List.Forall₂ (fun row v => ∃ cells, v = Json.arr cells ∧ List.Forall₂ (ReadsCell raw) row cells) t.table
      (t.table.map fun row => .arr (row.map fun c => (cellJson raw c).sortKeys)) := by
    rw [List.forall₂_map_right_iff]
    refine List.forall₂_same.mpr (fun row _ => ⟨_, rfl, ?_⟩)
    rw [List.forall₂_map_right_iff]
    exact List.forall₂_same.mpr (fun c _ => cellJson_reads raw c)
  have h1 : strLt (S "table") (S "witnesses") = true := by decide
  unfold JsonTable.text jsonDumps
  rw [readJson_text]
  unfold JsonTable.json
  cases hs : t.status with
  | none =>
    have e : (Json.obj ([(S "table", Json.arr (t.table.map fun row => Json.arr (row.map (cellJson raw)))), (S "witnesses", Json.arr (t.witnesses.map .str))] ++ [])).sortKeys =
        .obj [(S "table", .arr (t.table.map fun row => .arr (row.map fun c => (cellJson raw c).sortKeys))), (S "witnesses", .arr (t.witnesses.map .str))] := by
      rw [Json.sortKeys]
      simp only [List.append_nil, sortKeysEntries, insertEntry, h1, if_true, htable, hwit]
    refine ⟨_, _, congrArg some e, ?_, List.mem_cons_self, List.mem_cons_of_mem _ List.mem_cons_self, by simp, hrows⟩
    simp
  | some bs =>
    have hst : (Json.arr (bs.map Json.bool)).sortKeys = .arr (bs.map .bool) := sortKeys_arr _ (fun s => by simp [Json.sortKeys]) _
    have h2 : strLt (S "witnesses") (S "status") = false := by decide
    have h3 : strLt (S "table") (S "status") = false := by decide
    have e : (Json.obj ([(S "table", Json.arr (t.table.map fun row => Json.arr (row.map (cellJson raw)))), (S "witnesses", Json.arr (t.witnesses.map .str))] ++ [(S "status", Json.arr (bs.map .bool))])).sortKeys =
        .obj [(S "status", .arr (bs.map .bool)), (S "table", .arr (t.table.map fun row => .arr (row.map fun c => (cellJson raw c).sortKeys))), (S "witnesses", .arr (t.witnesses.map .str))] := by
      rw [Json.sortKeys]
      simp only [List.cons_append, List.nil_append, sortKeysEntries, insertEntry, h1, h2, h3, if_true, Bool.false_eq_true, if_false, htable, hwit, hst]
    refine ⟨_, _, congrArg some e, ?_, by simp, by simp, ?_, hrows⟩
    · simp
    · intro bs' hb
      cases hb
      simp

/-- A table with a record that must be escaped, written and read. -/
example :
    JsonTable.text (fun _ => .null) none ⟨[[some [[(.t, .str (S "a\n\"")), (.n, .str (S "a\u0001")), (.pos, .nat 3)]], none]], [S "A"], some [true]⟩ =
      S "{\"status\": [true], \"table\": [[[{\"_token_array_position\": 3, \"n\": \"a\\u0001\", \"t\": \"a\\n\\\"\"}], null]], \"witnesses\": [\"A\"]}" ∧
    JsonTable.text (fun _ => .int (-7)) (some 1) ⟨[[some [[(.other (S "x"), .raw (S "-7"))]]]], [S "A"], none⟩ =
      S "{\n \"table\": [\n  [\n   [\n    {\n     \"x\": -7\n    }\n   ]\n  ]\n ],\n \"witnesses\": [\n  \"A\"\n ]\n}" := by
  decide +kernel

end CollateX
