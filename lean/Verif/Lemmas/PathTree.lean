import Verif.Lemmas.PathInds
import Verif.Spec.Bracket
import Verif.Lemmas.IsTree
import Mathlib.Data.List.Sort
import Mathlib.Data.List.GetD

/-! From a path to a forest, and from a forest to a vector of nodes. -/

namespace TNCO
open PTree

theorem toTerm_congr {f g : ℕ → ℕ} {t : PTree} (h : ∀ p ∈ t.leaves, f p = g p) :
    t.toTerm f = t.toTerm g := by
  induction t with
  | leaf p => simp [toTerm, h p (by simp [leaves])]
  | node p l r ihl ihr =>
    simp only [leaves, List.mem_append] at h
    simp [toTerm, ihl fun q hq => h q (Or.inl hq), ihr fun q hq => h q (Or.inr hq)]

theorem toTerm_mapP (f g : ℕ → ℕ) (t : PTree) : (t.mapP g).toTerm f = t.toTerm (f ∘ g) := by
  induction t with
  | leaf p => rfl
  | node p l r ihl ihr => simp [toTerm, mapP, ihl, ihr]

theorem popPair_perm {α : Type} {F : List α} {x y : ℕ} {a b : α} {rest : List α}
    (h : popPair F x y = some (a, b, rest)) : F.Perm (a :: b :: rest) := by
  unfold popPair at h
  split at h
  · simp at h
  next py hy =>
    split at h
    · simp at h
    next px hx =>
      simp only [Option.some.injEq, Prod.mk.injEq] at h
      obtain ⟨rfl, rfl, rfl⟩ := h
      obtain ⟨h1, e1⟩ := List.getElem?_eq_some_iff.1 hy
      obtain ⟨h2, e2⟩ := List.getElem?_eq_some_iff.1 hx
      have p1 := List.getElem_cons_eraseIdx_perm h1
      have p2 := List.getElem_cons_eraseIdx_perm h2
      rw [e1] at p1; rw [e2] at p2
      exact (p1.symm.trans (p2.symm.cons _)).trans (List.Perm.swap _ _ _)

theorem popPair_map {α β : Type} (f : α → β) (F : List α) (x y : ℕ) :
    popPair (F.map f) x y = (popPair F x y).map fun r => (f r.1, f r.2.1, r.2.2.map f) := by
  unfold popPair
  rw [List.getElem?_map]
  cases h1 : F[max x y]? with
  | none => rfl
  | some b =>
    simp only [Option.map_some, List.eraseIdx_map, List.getElem?_map]
    cases h2 : (F.eraseIdx (max x y))[min x y]? with
    | none => simp
    | some a => simp

theorem replay_cons {ts : List Term} {x y : ℕ} (hxy : x ≠ y) (path : List (ℕ × ℕ)) :
    replay ts ((x, y) :: path) = (popPair ts x y).bind fun r =>
      replay (r.2.2 ++ [.pair r.1 r.2.1]) path := by
  have hlt : min x y < max x y := by omega
  simp only [replay, if_neg hxy, popPair, List.getElem?_eraseIdx_of_lt hlt]
  cases h1 : ts[max x y]? with
  | none => cases ts[min x y]? <;> rfl
  | some b => cases ts[min x y]? <;> rfl

theorem contractionLoop_spec (n : ℕ) (path : List (ℕ × ℕ)) (i : ℕ) (F : List PTree) :
    (∀ c, contractionLoop n i (F.map root) path = some c → ∃ F', Run F c F' ∧
      c.map (fun t => t.2.2) = List.range' (i + n) path.length ∧
      ((∀ s ∈ path, s.1 ≠ s.2) → ∀ f, replay (F.map (toTerm f)) path = some (F'.map (toTerm f)))) ∧
    (contractionLoop n i (F.map root) path = none → (∀ s ∈ path, s.1 ≠ s.2) →
      ∀ f, replay (F.map (toTerm f)) path = none) := by
  induction path generalizing i F with
  | nil =>
    refine ⟨?_, by simp [contractionLoop]⟩
    intro c hc
    simp only [contractionLoop, Option.some.injEq] at hc
    subst hc
    exact ⟨F, .nil (List.Perm.refl _), by simp, fun _ f => rfl⟩
  | cons s path ih =>
    obtain ⟨x, y⟩ := s
    simp only [contractionLoop, popPair_map]
    cases hp : popPair F x y with
    | none =>
      refine ⟨by simp, fun _ hne f => ?_⟩
      rw [replay_cons (hne (x, y) (by simp)), popPair_map, hp]; rfl
    | some r =>
      obtain ⟨a, b, rest⟩ := r
      simp only [Option.map_some]
      have e : rest.map root ++ [i + n] = (rest ++ [PTree.node (i + n) a b]).map root := by simp [root]
      rw [e]
      obtain ⟨ih1, ih2⟩ := ih (i + 1) (rest ++ [PTree.node (i + n) a b])
      have hrep : (∀ s ∈ (x, y) :: path, s.1 ≠ s.2) → ∀ f, replay (F.map (toTerm f)) ((x, y) :: path) =
          replay ((rest ++ [PTree.node (i + n) a b]).map (toTerm f)) path := by
        intro hne f
        rw [replay_cons (hne (x, y) (by simp)), popPair_map, hp]
        simp [toTerm]
      constructor
      · intro c hc
        cases h2 : contractionLoop n (i + 1) ((rest ++ [PTree.node (i + n) a b]).map root) path with
        | none => rw [h2] at hc; simp at hc
        | some c' =>
          rw [h2] at hc
          simp only [Option.map_some, Option.some.injEq] at hc
          subst hc
          obtain ⟨F', hr, ht, hrp⟩ := ih1 c' h2
          refine ⟨F', .cons (popPair_perm hp) (hr.perm_left (List.perm_append_singleton _ _).symm), ?_, ?_⟩
          · rw [List.map_cons, ht, List.length_cons, List.range'_succ]
            congr 2; omega
          · intro hne f
            rw [hrep hne, hrp fun s hs => hne s (by simp [hs])]
      · intro hc hne f
        rw [hrep hne]
        refine ih2 ?_ (fun s hs => hne s (by simp [hs])) f
        cases h2 : contractionLoop n (i + 1) ((rest ++ [PTree.node (i + n) a b]).map root) path with
        | none => rfl
        | some c' => rw [h2] at hc; simp at hc

theorem sortNat_perm (l : List ℕ) : (sortNat l).Perm l := List.perm_insertionSort _ _

theorem sortNat_sorted (l : List ℕ) : (sortNat l).Pairwise (· ≤ ·) := List.pairwise_insertionSort _ l

/-- A strictly sorted list is determined by its elements. -/
theorem eq_of_sorted {l m : List ℕ} (hl : l.Pairwise (· ≤ ·)) (hm : m.Pairwise (· ≤ ·))
    (nl : l.Nodup) (nm : m.Nodup) (h : ∀ x, x ∈ l ↔ x ∈ m) : l = m :=
  List.Perm.eq_of_pairwise' hl hm ((List.perm_ext_iff_of_nodup nl nm).2 h)

theorem mem_flattenTriples {c : List (ℕ × ℕ × ℕ)} {x : ℕ} :
    x ∈ flattenTriples c ↔ ∃ t ∈ c, x = t.1 ∨ x = t.2.1 ∨ x = t.2.2 := by
  simp [flattenTriples]

theorem foldr_max_eq {l : List ℕ} {m : ℕ} (hm : 0 < m) (h : ∀ x, x ∈ l ↔ x < m) :
    l.foldr max 0 + 1 = m := by
  have h1 : ∀ (l : List ℕ) x, x ∈ l → x ≤ l.foldr max 0 := by
    intro l x hx
    induction l with
    | nil => simp at hx
    | cons y l ih =>
      rcases List.mem_cons.1 hx with rfl | hx
      · simp
      · simp [ih hx]
  have h2 : ∀ (l : List ℕ) b, (∀ x ∈ l, x ≤ b) → l.foldr max 0 ≤ b := by
    intro l b hb
    induction l with
    | nil => simp
    | cons y l ih => simp [hb y (by simp), ih fun x hx => hb x (by simp [hx])]
  have := h1 l (m - 1) ((h _).2 (by omega))
  have := h2 l (m - 1) (fun x hx => by have := (h x).1 hx; omega)
  omega

/-- What the constructor computes from the path, as a forest. `pos` is `pos_`. -/
structure PathForest (n : ℕ) (c : List (ℕ × ℕ × ℕ)) (G : List PTree) : Prop where
  run : Run ((tensorsPosOf n c).map .leaf) c G
  third : c.map (fun t => t.2.2) = List.range' n c.length
  node : ∀ t ∈ G, ∃ p l r, t = .node p l r
  labels : (Run.labels G).Perm (tensorsPosOf n c ++ List.range' n c.length)
  pos : sortNat (uniqueEverseen (flattenTriples c)) = tensorsPosOf n c ++ List.range' n c.length

theorem tensorsPosOf_sorted (n : ℕ) (c) : (tensorsPosOf n c).Pairwise (· ≤ ·) := sortNat_sorted _

theorem tensorsPosOf_nodup (n : ℕ) (c) : (tensorsPosOf n c).Nodup :=
  (sortNat_perm _).nodup_iff.2 ((uniqueEverseen_nodup _).filter _)

theorem mem_tensorsPosOf {n : ℕ} {c} {x : ℕ} :
    x ∈ tensorsPosOf n c ↔ x ∈ flattenTriples c ∧ x < n := by
  unfold tensorsPosOf
  rw [(sortNat_perm _).mem_iff, List.mem_filter, mem_uniqueEverseen]; simp

/-- The forest of a list of contractions that runs on the tensors. -/
theorem forest_of_run {n : ℕ} {c : List (ℕ × ℕ × ℕ)} {F' : List PTree} (hr : Run ((List.range n).map .leaf) c F')
    (hth : c.map (fun t => t.2.2) = List.range' n c.length) :
    PathForest n c (F'.filter fun t => decide (t.root ∈ flattenTriples c)) ∧
      (∀ t ∈ F', t.root ∉ flattenTriples c → ∃ p, t = .leaf p) := by
  have hlab0 : Run.labels ((List.range n).map PTree.leaf) = List.range n := by
    simp [Run.labels, List.flatMap_map, postorder]
  have htouch := hr.touched
  have hnoinit : ∀ x, ¬ ∃ t ∈ (List.range n).map PTree.leaf, (∃ p l r, t = PTree.node p l r) ∧ x ∈ t.postorder := by
    rintro x ⟨t, ht, ⟨p, l, r, rfl⟩, -⟩
    simp at ht
  have htouch' : ∀ x, (∃ t ∈ F', (∃ p l r, t = .node p l r) ∧ x ∈ t.postorder) ↔ x ∈ flattenTriples c := by
    intro x; rw [htouch x]; exact or_iff_right (hnoinit x)
  have hcount : ∀ x, (Run.labels F').count x = (List.range n).count x + (List.range' n c.length).count x := by
    intro x; rw [hr.labels_count, hlab0, hth]
  have hnd : (Run.labels F').Nodup := by
    rw [List.nodup_iff_count_le_one]
    intro x
    rw [hcount]
    have h1 := List.nodup_iff_count_le_one.1 (List.nodup_range (n := n)) x
    have h2 := List.nodup_iff_count_le_one.1 (List.nodup_range' (s := n) (n := c.length) (step := 1)) x
    by_cases hx : x < n
    · have : (List.range' n c.length).count x = 0 := by
        rw [List.count_eq_zero]; simp; omega
      omega
    · have : (List.range n).count x = 0 := by rw [List.count_eq_zero]; simpa using hx
      omega
  have hflat : ∀ x ∈ flattenTriples c, x < n + c.length := by
    intro x hx
    obtain ⟨t, ht, -, hxt⟩ := (htouch' x).2 hx
    have h1 : x ∈ Run.labels F' := List.mem_flatMap.2 ⟨t, ht, hxt⟩
    have h2 := hcount x
    have h3 : 0 < (Run.labels F').count x := List.count_pos_iff.2 h1
    by_contra hlt
    have : (List.range n).count x = 0 := by rw [List.count_eq_zero]; simp; omega
    have : (List.range' n c.length).count x = 0 := by rw [List.count_eq_zero]; simp; omega
    omega
  have hnew : ∀ x, n ≤ x → x < n + c.length → x ∈ flattenTriples c := by
    intro x h1 h2
    have : x ∈ c.map (fun t => t.2.2) := by rw [hth]; simp; omega
    obtain ⟨t, ht, rfl⟩ := List.mem_map.1 this
    exact mem_flattenTriples.2 ⟨t, ht, by simp⟩
  have hpos : sortNat (uniqueEverseen (flattenTriples c)) = tensorsPosOf n c ++ List.range' n c.length := by
    refine eq_of_sorted (sortNat_sorted _) ?_ ((sortNat_perm _).nodup_iff.2 (uniqueEverseen_nodup _)) ?_ ?_
    · rw [List.pairwise_append]
      refine ⟨tensorsPosOf_sorted _ _, ?_, ?_⟩
      · exact (List.pairwise_lt_range' (s := n) (n := c.length)).imp le_of_lt
      · intro a ha b hb
        have := (mem_tensorsPosOf.1 ha).2
        simp at hb; omega
    · rw [List.nodup_append']
      refine ⟨tensorsPosOf_nodup _ _, List.nodup_range', ?_⟩
      intro a ha hb
      have := (mem_tensorsPosOf.1 ha).2
      simp at hb; omega
    · intro x
      rw [(sortNat_perm _).mem_iff, mem_uniqueEverseen, List.mem_append, mem_tensorsPosOf]
      constructor
      · intro hx
        by_cases hxn : x < n
        · exact Or.inl ⟨hx, hxn⟩
        · refine Or.inr ?_
          have := hflat x hx
          simp; omega
      · rintro (hx | hx)
        · exact hx.1
        · simp at hx; exact hnew x (by omega) (by omega)
  have hrun : Run ((tensorsPosOf n c).map .leaf) c (F'.filter fun t => decide (t.root ∈ flattenTriples c)) := by
    have := hr.filter (fun x => decide (x ∈ flattenTriples c)) (by simp)
    refine this.perm_left ?_
    rw [List.filter_map]
    refine List.Perm.map _ ?_
    refine (List.perm_ext_iff_of_nodup (tensorsPosOf_nodup _ _) (List.nodup_range.filter _)).2 fun x => ?_
    rw [mem_tensorsPosOf, List.mem_filter]; simp only [List.mem_range, Function.comp, root]
    exact ⟨fun h => ⟨h.2, decide_eq_true h.1⟩, fun h => ⟨of_decide_eq_true h.2, h.1⟩⟩
  have hnode : ∀ t ∈ F', t.root ∈ flattenTriples c → ∃ p l r, t = .node p l r := by
    intro t ht hx
    obtain ⟨u, hu, hun, hxu⟩ := (htouch' _).2 hx
    have : t = u := by
      by_contra hne
      -- the label would occur twice
      obtain ⟨s1, s2, rfl⟩ := List.append_of_mem ht
      have hcnt := List.nodup_iff_count_le_one.1 hnd t.root
      have hu' : u ∈ s1 ++ s2 := by
        simp only [List.mem_append, List.mem_cons] at hu ⊢
        rcases hu with h' | h' | h'
        · exact Or.inl h'
        · exact absurd h'.symm hne
        · exact Or.inr h'
      have c1 : 0 < (Run.labels (s1 ++ s2)).count t.root :=
        List.count_pos_iff.2 (List.mem_flatMap.2 ⟨u, hu', hxu⟩)
      have c2 : 0 < t.postorder.count t.root := List.count_pos_iff.2 t.root_mem
      simp only [Run.labels, List.flatMap_append, List.flatMap_cons, List.count_append] at *
      omega
    exact this ▸ hun
  refine ⟨⟨hrun, hth, ?_, ?_, hpos⟩, ?_⟩
  · intro t ht
    rw [List.mem_filter, decide_eq_true_eq] at ht
    exact hnode t ht.1 ht.2
  · rw [List.perm_iff_count]; intro x
    rw [hrun.labels_count, hth, List.count_append]
    simp [Run.labels, List.flatMap_map, postorder]
  · intro t ht hx
    cases t with
    | leaf p => exact ⟨p, rfl⟩
    | node p l r =>
      exact absurd ((htouch' p).1 ⟨_, ht, ⟨_, _, _, rfl⟩, by simp [postorder]⟩) hx

theorem pathForest {n : ℕ} {path : List (ℕ × ℕ)} {c} (h : contractionLoop n 0 (List.range n) path = some c) :
    ∃ F', Run ((List.range n).map .leaf) c F' ∧ c.length = path.length ∧
      PathForest n c (F'.filter fun t => decide (t.root ∈ flattenTriples c)) ∧
      (∀ t ∈ F', t.root ∉ flattenTriples c → ∃ p, t = .leaf p) ∧
      ((∀ s ∈ path, s.1 ≠ s.2) → ∀ f, replay ((List.range n).map fun p => .tensor (f p)) path =
        some (F'.map (toTerm f))) := by
  have e : (List.range n) = ((List.range n).map PTree.leaf).map root := by
    rw [List.map_map]; simp [Function.comp_def, root]
  obtain ⟨F', hr, hth, hrep⟩ := (contractionLoop_spec n path 0 ((List.range n).map .leaf)).1 c (by rw [← e]; exact h)
  have hlen : c.length = path.length := by
    have := congrArg List.length hth; simpa using this
  rw [Nat.zero_add, ← hlen] at hth
  obtain ⟨h1, h2⟩ := forest_of_run hr hth
  refine ⟨F', hr, hlen, h1, h2, fun hne f => ?_⟩
  have := hrep hne f
  rw [List.map_map] at this
  exact this

end TNCO
