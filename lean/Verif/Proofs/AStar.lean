import Verif.Model.AStar
import Mathlib.Data.List.Basic
import Mathlib.Tactic.ByContra
/-
Best-first search: invariants of the loop.
-/

namespace CollateX

variable {α : Type} [DecidableEq α]

theorem mem_insertBy {key : α → Int} {x y : α} : ∀ {l : List α}, y ∈ insertBy key x l ↔ y = x ∨ y ∈ l
  | [] => by simp [insertBy]
  | z :: l => by
    unfold insertBy
    split
    · simp
    · simp only [List.mem_cons, mem_insertBy (l := l)]; tauto

theorem insertBy_sorted {key : α → Int} {x : α} : ∀ {l : List α}, l.Pairwise (fun a b => key a ≤ key b) →
    (insertBy key x l).Pairwise (fun a b => key a ≤ key b)
  | [], _ => by simp [insertBy]
  | z :: l, h => by
    have h' := List.pairwise_cons.mp h
    unfold insertBy
    split
    · rename_i hle
      refine List.pairwise_cons.mpr ⟨fun a ha => ?_, h⟩
      rcases List.mem_cons.mp ha with rfl | ha
      · exact hle
      · have := h'.1 a ha; omega
    · refine List.pairwise_cons.mpr ⟨fun a ha => ?_, insertBy_sorted h'.2⟩
      rcases mem_insertBy.mp ha with rfl | ha
      · omega
      · exact h'.1 a ha

theorem insertBy_nodup {key : α → Int} {x : α} : ∀ {l : List α}, l.Nodup → x ∉ l → (insertBy key x l).Nodup
  | [], _, _ => by simp [insertBy]
  | z :: l, h, hx => by
    have h' := List.nodup_cons.mp h
    unfold insertBy
    split
    · exact List.nodup_cons.mpr ⟨hx, h⟩
    · refine List.nodup_cons.mpr ⟨?_, insertBy_nodup h'.2 (fun e => hx (by simp [e]))⟩
      rw [mem_insertBy]
      rintro (rfl | e)
      · exact hx (by simp)
      · exact h'.1 e

theorem mem_sortByKey {key : α → Int} {y : α} : ∀ {l : List α}, y ∈ sortByKey key l ↔ y ∈ l
  | [] => by simp [sortByKey]
  | z :: l => by rw [sortByKey, mem_insertBy, mem_sortByKey (l := l), List.mem_cons]

theorem sortByKey_sorted {key : α → Int} : ∀ (l : List α), (sortByKey key l).Pairwise (fun a b => key a ≤ key b)
  | [] => by simp [sortByKey]
  | z :: l => by rw [sortByKey]; exact insertBy_sorted (sortByKey_sorted l)

theorem sortByKey_nodup {key : α → Int} : ∀ {l : List α}, l.Nodup → (sortByKey key l).Nodup
  | [], _ => by simp [sortByKey]
  | z :: l, h => by
    have h' := List.nodup_cons.mp h
    rw [sortByKey]
    exact insertBy_nodup (sortByKey_nodup h'.2) (by rw [mem_sortByKey]; exact h'.1)

theorem assign_same {β : Type} (f : α → β) (a : α) (b : β) : assign f a b a = b := by simp [assign]
theorem assign_ne {β : Type} (f : α → β) {a x : α} (b : β) (h : x ≠ a) : assign f a b x = f x := by simp [assign, h]

/-- A path recorded by the parents, from the start to `n`; `vis` bounds where the ancestors are found. -/
inductive ParentPath (P : SearchProblem α) (g : α → Int) (parent : α → Option α) (start : α) : List α → α → List α → Prop
  | base (vis) : parent start = none → g start = 0 → ParentPath P g parent start vis start []
  | step {n m : α} {pre suf p : List α} : parent n = some m → ParentPath P g parent start suf m p → n ∈ P.children m →
      g n = g m + P.cost m n → ParentPath P g parent start (pre ++ m :: suf) n (p ++ [n])

variable {P : SearchProblem α} {start : α}

theorem ParentPath.mono {g : α → Int} {parent : α → Option α} {vis p : List α} {n : α} (h : ParentPath P g parent start vis n p)
    (pre : List α) : ParentPath P g parent start (pre ++ vis) n p := by
  cases h with
  | base _ h1 h2 => exact .base _ h1 h2
  | step h1 h2 h3 h4 => rw [← List.append_assoc]; exact .step h1 h2 h3 h4

/-- The path depends on the attributes of `n` and of the nodes in `vis` only. -/
theorem ParentPath.congr {g g' : α → Int} {parent parent' : α → Option α} {vis p : List α} {n : α}
    (h : ParentPath P g parent start vis n p) (hg : ∀ x, x ∈ n :: vis → g' x = g x)
    (hp : ∀ x, x ∈ n :: vis → parent' x = parent x) : ParentPath P g' parent' start vis n p := by
  induction h with
  | base vis h1 h2 => exact .base _ (by rw [hp _ (by simp)]; exact h1) (by rw [hg _ (by simp)]; exact h2)
  | @step n m pre suf p h1 h2 h3 h4 ih =>
    refine .step (by rw [hp _ (by simp)]; exact h1) (ih ?_ ?_) h3 ?_
    · intro x hx; exact hg x (by simp at hx ⊢; tauto)
    · intro x hx; exact hp x (by simp at hx ⊢; tauto)
    · rw [hg n (by simp), hg m (by simp)]; exact h4

/-- The invariant of the search: what holds whenever the loop is entered. -/
structure SearchInv (P : SearchProblem α) (start : α) (s : SearchSt α) : Prop where
  nodup : s.heap.Nodup
  visNodup : s.visited.Nodup
  disj : ∀ x ∈ s.heap, x ∉ s.visited
  started : start ∈ s.visited ∨ s.heap = [start]
  startCost : s.g start = 0
  paths : ∀ x ∈ s.heap, ∃ p, ParentPath P s.g s.parent start s.visited x p
  visPaths : ∀ pre x suf, s.visited = pre ++ x :: suf → ∃ p, ParentPath P s.g s.parent start suf x p
  opened : ∀ v ∈ s.visited, ∀ c ∈ P.children v, c ∈ s.visited ∨ c ∈ s.heap
  notEnd : ∀ v ∈ s.visited, P.isEnd v = false

/-- The invariant while the children of `node` are gone through: `todo` are those still to come. -/
structure ChildInv (P : SearchProblem α) (start node : α) (s : SearchSt α) (todo : List α) : Prop where
  nodup : s.heap.Nodup
  visNodup : s.visited.Nodup
  disj : ∀ x ∈ s.heap, x ∉ s.visited
  started : start ∈ s.visited
  startCost : s.g start = 0
  head : ∃ suf, s.visited = node :: suf
  paths : ∀ x ∈ s.heap, ∃ p, ParentPath P s.g s.parent start s.visited x p
  visPaths : ∀ pre x suf, s.visited = pre ++ x :: suf → ∃ p, ParentPath P s.g s.parent start suf x p
  opened : ∀ v ∈ s.visited, ∀ c ∈ P.children v, c ∈ s.visited ∨ c ∈ s.heap ∨ (v = node ∧ c ∈ todo)
  notEnd : ∀ v ∈ s.visited, P.isEnd v = false

theorem visitChild_inv {node : α} {s : SearchSt α} {c : α} {todo : List α} (hc : c ∈ P.children node)
    (I : ChildInv P start node s (c :: todo)) : ChildInv P start node (visitChild P node s c) todo := by
  unfold visitChild
  by_cases hv : c ∈ s.visited
  · rw [if_pos hv]
    refine { I with opened := ?_ }
    intro v hv' d hd
    rcases I.opened v hv' d hd with h | h | ⟨h, h'⟩
    · exact .inl h
    · exact .inr (.inl h)
    · rcases List.mem_cons.mp h' with rfl | h'
      · exact .inl hv
      · exact .inr (.inr ⟨h, h'⟩)
  · rw [if_neg hv]
    simp only
    by_cases hu : c ∉ s.heap ∨ s.g node + P.cost node c < s.g c
    · rw [if_pos hu]
      have hmem : ∀ x, x ∈ (if c ∉ s.heap then s.heap ++ [c] else s.heap) ↔ x ∈ s.heap ∨ x = c := by
        intro x
        split
        · simp
        · rename_i h
          have h : c ∈ s.heap := not_not.mp h
          constructor
          · exact .inl
          · rintro (h' | rfl)
            · exact h'
            · exact h
      have hne : ∀ x ∈ s.visited, x ≠ c := fun x hx e => hv (e ▸ hx)
      have keep : ∀ vis n p, (∀ x ∈ n :: vis, x ≠ c) → ParentPath P s.g s.parent start vis n p →
          ParentPath P (assign s.g c (s.g node + P.cost node c)) (assign s.parent c (some node)) start vis n p := by
        intro vis n p hx h
        exact h.congr (fun x h' => assign_ne _ _ (hx x h')) (fun x h' => assign_ne _ _ (hx x h'))
      obtain ⟨suf, hsuf⟩ := I.head
      refine ⟨?_, I.visNodup, ?_, I.started, (assign_ne _ _ (hne start I.started)).trans I.startCost, I.head, ?_, ?_, ?_, I.notEnd⟩
      · show (if c ∉ s.heap then s.heap ++ [c] else s.heap).Nodup
        split
        · rename_i h
          exact List.nodup_append.mpr ⟨I.nodup, by simp, by
            intro a ha b hb e
            rw [List.mem_singleton.mp hb] at e
            exact h (e ▸ ha)⟩
        · exact I.nodup
      · intro x hx
        rcases (hmem x).mp hx with h | rfl
        · exact I.disj x h
        · exact hv
      · intro x hx
        by_cases hxc : x = c
        · subst hxc
          obtain ⟨p, hp⟩ := I.visPaths [] node suf hsuf
          refine ⟨p ++ [x], ?_⟩
          show ParentPath P _ _ start s.visited x (p ++ [x])
          rw [hsuf]
          refine ParentPath.step (pre := []) (assign_same _ _ _) (keep _ _ _ ?_ hp) hc ?_
          · intro y hy
            exact hne y (by rw [hsuf]; exact hy)
          · show assign s.g x (s.g node + P.cost node x) x = assign s.g x (s.g node + P.cost node x) node + P.cost node x
            rw [assign_same, assign_ne _ _ (hne node (by rw [hsuf]; simp))]
        · have h : x ∈ s.heap := ((hmem x).mp hx).resolve_right hxc
          obtain ⟨p, hp⟩ := I.paths x h
          refine ⟨p, keep _ _ _ ?_ hp⟩
          intro y hy
          rcases List.mem_cons.mp hy with rfl | hy
          · exact hxc
          · exact hne y hy
      · intro pre x suf' h
        obtain ⟨p, hp⟩ := I.visPaths pre x suf' h
        have h : s.visited = pre ++ x :: suf' := h
        refine ⟨p, keep _ _ _ ?_ hp⟩
        intro y hy
        exact hne y (by rw [h]; exact List.mem_append_right _ hy)
      · intro v hv' d hd
        rcases I.opened v hv' d hd with h | h | ⟨h, h'⟩
        · exact .inl h
        · exact .inr (.inl ((hmem d).mpr (.inl h)))
        · rcases List.mem_cons.mp h' with rfl | h'
          · exact .inr (.inl ((hmem d).mpr (.inr rfl)))
          · exact .inr (.inr ⟨h, h'⟩)
    · rw [if_neg hu]
      refine { I with opened := ?_ }
      intro v hv' d hd
      rcases I.opened v hv' d hd with h | h | ⟨h, h'⟩
      · exact .inl h
      · exact .inr (.inl h)
      · rcases List.mem_cons.mp h' with rfl | h'
        · exact .inr (.inl (by by_contra hn; exact hu (.inl hn)))
        · exact .inr (.inr ⟨h, h'⟩)

theorem foldl_inv {node : α} : ∀ {todo : List α} {s : SearchSt α}, (∀ c ∈ todo, c ∈ P.children node) →
    ChildInv P start node s todo → ChildInv P start node (todo.foldl (visitChild P node) s) []
  | [], _, _, I => I
  | c :: todo, s, h, I => by
    rw [List.foldl_cons]
    exact foldl_inv (fun d hd => h d (by simp [hd])) (visitChild_inv (h c (by simp)) I)

theorem visitChild_visited {node c : α} {s : SearchSt α} : (visitChild P node s c).visited = s.visited := by
  unfold visitChild
  split
  · rfl
  · simp only
    split <;> rfl

theorem foldl_visited {node : α} : ∀ {l : List α} {s : SearchSt α}, (l.foldl (visitChild P node) s).visited = s.visited
  | [], _ => rfl
  | c :: l, s => by rw [List.foldl_cons, foldl_visited, visitChild_visited]

omit [DecidableEq α] in
/-- The start of the search satisfies the invariant. -/
theorem start_inv (start : α) : SearchInv P start
    { g := fun _ => 0, h := fun _ => 0, parent := fun _ => none, heap := [start], visited := [] } where
  nodup := by simp
  visNodup := by simp
  disj := by simp
  started := .inr rfl
  startCost := rfl
  paths := by
    intro x hx
    rw [List.mem_singleton.mp hx]
    exact ⟨[], .base _ rfl rfl⟩
  visPaths := by intro pre x suf h; simp at h
  opened := by simp
  notEnd := by simp

/-- Taking the first node of the sorted heap. -/
theorem pop_inv {s : SearchSt α} {key : α → Int} {node : α} {rest : List α} (I : SearchInv P start s)
    (hs : sortByKey key s.heap = node :: rest) (hend : P.isEnd node = false) :
    ChildInv P start node { s with heap := rest, visited := node :: s.visited } (P.children node) := by
  have hmem : ∀ x, x ∈ s.heap ↔ x = node ∨ x ∈ rest := by
    intro x; rw [← mem_sortByKey (key := key), hs, List.mem_cons]
  have hnd := sortByKey_nodup (key := key) I.nodup
  rw [hs] at hnd
  have hnd := List.nodup_cons.mp hnd
  have hnode : node ∈ s.heap := (hmem node).mpr (.inl rfl)
  refine ⟨hnd.2, List.nodup_cons.mpr ⟨I.disj node hnode, I.visNodup⟩, ?_, ?_, I.startCost, ⟨_, rfl⟩, ?_, ?_, ?_, ?_⟩
  · intro x hx h
    have hx : x ∈ rest := hx
    rcases List.mem_cons.mp h with rfl | h
    · exact hnd.1 hx
    · exact I.disj x ((hmem x).mpr (.inr hx)) h
  · rcases I.started with h | h
    · exact List.mem_cons_of_mem _ h
    · rw [h] at hnode
      rw [List.mem_singleton.mp hnode]
      exact List.mem_cons_self
  · intro x hx
    obtain ⟨p, hp⟩ := I.paths x ((hmem x).mpr (.inr hx))
    exact ⟨p, hp.mono [node]⟩
  · intro pre x suf h
    have h : node :: s.visited = pre ++ x :: suf := h
    cases pre with
    | nil =>
      rw [List.nil_append] at h
      injection h with h1 h2
      rw [← h1, ← h2]
      exact I.paths node hnode
    | cons a pre =>
      rw [List.cons_append] at h
      injection h with h1 h2
      exact I.visPaths pre x suf h2
  · intro v hv c hc
    rcases List.mem_cons.mp hv with rfl | hv
    · exact .inr (.inr ⟨rfl, hc⟩)
    · rcases I.opened v hv c hc with h | h
      · exact .inl (List.mem_cons_of_mem _ h)
      · rcases (hmem c).mp h with rfl | h
        · exact .inl List.mem_cons_self
        · exact .inr (.inl h)
  · intro v hv
    rcases List.mem_cons.mp hv with rfl | hv
    · exact hend
    · exact I.notEnd v hv

theorem round_inv {s : SearchSt α} {key : α → Int} {node : α} {rest : List α} (I : SearchInv P start s)
    (hs : sortByKey key s.heap = node :: rest) (hend : P.isEnd node = false) :
    SearchInv P start ((P.children node).foldl (visitChild P node) { s with heap := rest, visited := node :: s.visited }) := by
  have C := foldl_inv (fun c h => h) (pop_inv I hs hend)
  refine ⟨C.nodup, C.visNodup, C.disj, .inl C.started, C.startCost, C.paths, C.visPaths, ?_, C.notEnd⟩
  intro v hv c hc
  rcases C.opened v hv c hc with h | h | ⟨_, h⟩
  · exact .inl h
  · exact .inr h
  · cases h

/-- `reconstruct_path` follows the parents. -/
theorem reconstruct_ok {g : α → Int} {parent : α → Option α} {vis p : List α} {n : α}
    (h : ParentPath P g parent start vis n p) : ∀ (acc : List α) (f : Nat), vis.length < f →
    reconstruct parent f n acc = .ok (p ++ acc) := by
  induction h with
  | base vis h1 h2 =>
    intro acc f hf
    cases f with
    | zero => omega
    | succ f => rw [reconstruct, h1]; rfl
  | @step n m pre suf p h1 h2 h3 h4 ih =>
    intro acc f hf
    cases f with
    | zero => omega
    | succ f =>
      rw [reconstruct, h1]
      simp only
      rw [ih (n :: acc) f (by simp at hf; omega), List.append_assoc]
      rfl

/-! ### Costs -/

/-- A heuristic that never drops by more than the cost of a step. -/
def MonoH (P : SearchProblem α) : Prop := ∀ u, ∀ v ∈ P.children u, P.heuristic u ≤ P.cost u v + P.heuristic v

/-- What holds of the costs whenever the loop is entered. -/
structure CostInv (P : SearchProblem α) (start : α) (s : SearchSt α) : Prop where
  hval : s.heap = [start] ∨ ∀ n ∈ s.heap, s.h n = P.heuristic n
  relaxed : ∀ v ∈ s.visited, ∀ c ∈ P.children v, s.g c ≤ s.g v + P.cost v c
  ordered : ∀ v ∈ s.visited, ∀ n ∈ s.heap, s.g v + P.heuristic v ≤ s.g n + P.heuristic n

/-- What holds of the costs while the children of `node` are gone through. -/
structure CostChild (P : SearchProblem α) (node : α) (s : SearchSt α) (todo : List α) : Prop where
  hval : ∀ n ∈ s.heap, s.h n = P.heuristic n
  relaxed : ∀ v ∈ s.visited, ∀ c ∈ P.children v, s.g c ≤ s.g v + P.cost v c ∨ (v = node ∧ c ∈ todo)
  below : ∀ v ∈ s.visited, s.g v + P.heuristic v ≤ s.g node + P.heuristic node
  above : ∀ n ∈ s.heap, s.g node + P.heuristic node ≤ s.g n + P.heuristic n

theorem visitChild_cost {node : α} {s : SearchSt α} {c : α} {todo : List α} (hmon : MonoH P) (hc : c ∈ P.children node)
    (I : ChildInv P start node s (c :: todo)) (K : CostChild P node s (c :: todo)) :
    CostChild P node (visitChild P node s c) todo := by
  have hcons := hmon node c hc
  unfold visitChild
  by_cases hv : c ∈ s.visited
  · rw [if_pos hv]
    refine { K with relaxed := ?_ }
    intro v hv' d hd
    rcases K.relaxed v hv' d hd with h | ⟨h, h'⟩
    · exact .inl h
    · rcases List.mem_cons.mp h' with rfl | h'
      · subst h
        have := K.below d hv
        exact .inl (by omega)
      · exact .inr ⟨h, h'⟩
  · rw [if_neg hv]
    simp only
    have hne : ∀ x ∈ s.visited, x ≠ c := fun x hx e => hv (e ▸ hx)
    obtain ⟨suf, hsuf⟩ := I.head
    have hnode : node ∈ s.visited := by rw [hsuf]; simp
    by_cases hu : c ∉ s.heap ∨ s.g node + P.cost node c < s.g c
    · rw [if_pos hu]
      have hmem : ∀ x, x ∈ (if c ∉ s.heap then s.heap ++ [c] else s.heap) → x ∈ s.heap ∨ x = c := by
        intro x
        split
        · simp
        · exact .inl
      refine ⟨?_, ?_, ?_, ?_⟩
      · intro n hn
        show assign s.h c (P.heuristic c) n = P.heuristic n
        by_cases hnc : n = c
        · subst hnc; rw [assign_same]
        · rw [assign_ne _ _ hnc]
          exact K.hval n ((hmem n hn).resolve_right hnc)
      · intro v hv' d hd
        have hv' : v ∈ s.visited := hv'
        show assign s.g c (s.g node + P.cost node c) d ≤ assign s.g c (s.g node + P.cost node c) v + P.cost v d ∨ (v = node ∧ d ∈ todo)
        rw [assign_ne _ _ (hne v hv')]
        by_cases hdc : d = c
        · subst hdc
          rw [assign_same]
          rcases hu with hu | hu
          · rcases I.opened v hv' d hd with h | h | ⟨h, _⟩
            · exact absurd h hv
            · exact absurd h hu
            · subst h; exact .inl (Int.le_refl _)
          · rcases K.relaxed v hv' d hd with h | ⟨h, _⟩
            · exact .inl (by omega)
            · subst h; exact .inl (Int.le_refl _)
        · rw [assign_ne _ _ hdc]
          rcases K.relaxed v hv' d hd with h | ⟨h, h'⟩
          · exact .inl h
          · exact .inr ⟨h, (List.mem_cons.mp h').resolve_left hdc⟩
      · intro v hv'
        show assign s.g c _ v + _ ≤ assign s.g c _ node + _
        rw [assign_ne _ _ (hne v hv'), assign_ne _ _ (hne node hnode)]
        exact K.below v hv'
      · intro n hn
        show assign s.g c _ node + _ ≤ assign s.g c _ n + _
        rw [assign_ne _ _ (hne node hnode)]
        by_cases hnc : n = c
        · subst hnc; rw [assign_same]; omega
        · rw [assign_ne _ _ hnc]
          exact K.above n ((hmem n hn).resolve_right hnc)
    · rw [if_neg hu]
      refine { K with relaxed := ?_ }
      intro v hv' d hd
      rcases K.relaxed v hv' d hd with h | ⟨h, h'⟩
      · exact .inl h
      · rcases List.mem_cons.mp h' with rfl | h'
        · subst h
          exact .inl (by
            by_contra hlt
            exact hu (.inr (by omega)))
        · exact .inr ⟨h, h'⟩

theorem foldl_cost {node : α} (hmon : MonoH P) : ∀ {todo : List α} {s : SearchSt α}, (∀ c ∈ todo, c ∈ P.children node) →
    ChildInv P start node s todo → CostChild P node s todo → CostChild P node (todo.foldl (visitChild P node) s) []
  | [], _, _, _, K => K
  | c :: todo, s, h, I, K => by
    rw [List.foldl_cons]
    exact foldl_cost hmon (fun d hd => h d (by simp [hd])) (visitChild_inv (h c (by simp)) I)
      (visitChild_cost hmon (h c (by simp)) I K)

/-- The first node of the sorted heap has the least estimate. -/
theorem pop_min {s : SearchSt α} {node : α} {rest : List α} (K : CostInv P start s)
    (hs : sortByKey (fun x => s.g x + s.h x) s.heap = node :: rest) :
    ∀ n ∈ s.heap, s.g node + P.heuristic node ≤ s.g n + P.heuristic n := by
  have hmem : ∀ x, x ∈ s.heap ↔ x = node ∨ x ∈ rest := by
    intro x; rw [← mem_sortByKey (key := fun x => s.g x + s.h x), hs, List.mem_cons]
  have hnode : node ∈ s.heap := (hmem node).mpr (.inl rfl)
  intro n hn
  rcases K.hval with h | h
  · rw [h] at hn hnode
    rw [List.mem_singleton.mp hn, List.mem_singleton.mp hnode]
    exact Int.le_refl _
  · rcases (hmem n).mp hn with rfl | hr
    · exact Int.le_refl _
    · have hsort := sortByKey_sorted (key := fun x => s.g x + s.h x) s.heap
      rw [hs] at hsort
      have := (List.pairwise_cons.mp hsort).1 n hr
      rw [h n hn, h node hnode] at this
      exact this

theorem round_cost {s : SearchSt α} {node : α} {rest : List α} (hmon : MonoH P) (I : SearchInv P start s)
    (K : CostInv P start s) (hs : sortByKey (fun x => s.g x + s.h x) s.heap = node :: rest) (hend : P.isEnd node = false) :
    CostInv P start ((P.children node).foldl (visitChild P node) { s with heap := rest, visited := node :: s.visited }) := by
  have hmem : ∀ x, x ∈ s.heap ↔ x = node ∨ x ∈ rest := by
    intro x; rw [← mem_sortByKey (key := fun x => s.g x + s.h x), hs, List.mem_cons]
  have hnode : node ∈ s.heap := (hmem node).mpr (.inl rfl)
  have hmin := pop_min K hs
  have hrest : ∀ x ∈ rest, x ≠ node := by
    have hnd := sortByKey_nodup (key := fun x => s.g x + s.h x) I.nodup
    rw [hs] at hnd
    intro x hx e
    exact (List.nodup_cons.mp hnd).1 (e ▸ hx)
  have C : CostChild P node { s with heap := rest, visited := node :: s.visited } (P.children node) := by
    refine ⟨?_, ?_, ?_, ?_⟩
    · intro n hn
      have hn' : n ∈ s.heap := (hmem n).mpr (.inr hn)
      rcases K.hval with h | h
      · exfalso
        rw [h] at hn' hnode
        exact hrest n hn ((List.mem_singleton.mp hn').trans (List.mem_singleton.mp hnode).symm)
      · exact h n hn'
    · intro v hv c hc
      rcases List.mem_cons.mp hv with rfl | hv
      · exact .inr ⟨rfl, hc⟩
      · exact .inl (K.relaxed v hv c hc)
    · intro v hv
      rcases List.mem_cons.mp hv with rfl | hv
      · exact Int.le_refl _
      · exact K.ordered v hv node hnode
    · intro n hn
      exact hmin n ((hmem n).mpr (.inr hn))
  have F := foldl_cost hmon (fun c h => h) (pop_inv I hs hend) C
  refine ⟨.inr F.hval, ?_, ?_⟩
  · intro v hv c hc
    rcases F.relaxed v hv c hc with h | ⟨_, h⟩
    · exact h
    · cases h
  · intro v hv n hn
    exact Int.le_trans (F.below v hv) (F.above n hn)

omit [DecidableEq α] in
theorem start_cost (start : α) : CostInv P start
    { g := fun _ => 0, h := fun _ => 0, parent := fun _ => none, heap := [start], visited := [] } where
  hval := .inl rfl
  relaxed := by simp
  ordered := by simp

end CollateX
