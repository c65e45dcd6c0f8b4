import Verif.Spec.Reach

/-!
Helper lemmas: every tree can be turned into every other tree by moves that take the path from a leaf to the root apart and hang
the subtrees along it, in order, on one of two piles. If subtrees may be hung only where they share something (`adj`), this holds
for the trees whose contractions all share something.
-/

namespace TNCO
namespace PTree

theorem SameTree.refl : ∀ t : PTree, SameTree t t
  | .leaf p => .leaf p
  | .node _ l r => .node (SameTree.refl l) (SameTree.refl r)

theorem SameTree.symm {t t' : PTree} (h : SameTree t t') : SameTree t' t := by
  induction h with
  | leaf p => exact .leaf p
  | node _ _ ih1 ih2 => exact .node ih1 ih2
  | swap _ _ ih1 ih2 => exact .swap ih2 ih1

theorem SameTree.trans {t t' t'' : PTree} (h : SameTree t t') (h' : SameTree t' t'') : SameTree t t'' := by
  induction h generalizing t'' with
  | leaf p => exact h'
  | node _ _ ih1 ih2 =>
    cases h' with
    | node a b => exact .node (ih1 a) (ih2 b)
    | swap a b => exact .swap (ih1 a) (ih2 b)
  | swap _ _ ih1 ih2 =>
    cases h' with
    | node a b => exact .swap (ih1 b) (ih2 a)
    | swap a b => exact .node (ih1 b) (ih2 a)

theorem SameTree.leaves {t t' : PTree} (h : SameTree t t') : t.leaves.Perm t'.leaves := by
  induction h with
  | leaf p => exact List.Perm.refl _
  | node _ _ ih1 ih2 => exact ih1.append ih2
  | swap _ _ ih1 ih2 => exact (ih1.append ih2).trans List.perm_append_comm

theorem exists_leaf (t : PTree) : ∃ p, p ∈ t.leaves := by
  induction t with
  | leaf p => exact ⟨p, by simp [PTree.leaves]⟩
  | node p l r ih _ => obtain ⟨q, hq⟩ := ih; exact ⟨q, by simp [PTree.leaves, hq]⟩

variable (adj : ℕ → ℕ → Prop)

/-- Leaves on both sides share something. -/
def Meets (s t : PTree) : Prop := ∃ a ∈ s.leaves, ∃ b ∈ t.leaves, adj a b

/-- All contractions share something. -/
def Joined : PTree → Prop
  | .leaf _ => True
  | .node _ l r => Meets adj l r ∧ l.Joined ∧ r.Joined

/-- Subtrees hung on `x`, one after the other. -/
def pile (x : PTree) (ps : List PTree) : PTree := ps.foldl (fun t c => .node 0 t c) x

/-- Subtrees hung on one of two. -/
def piles : PTree → PTree → List (Bool × PTree) → PTree × PTree
  | x, y, [] => (x, y)
  | x, y, (true, c) :: cs => piles (.node 0 x c) y cs
  | x, y, (false, c) :: cs => piles x (.node 0 y c) cs

/-- Each subtree shares something with the one it is hung on. -/
def Fits : PTree → PTree → List (Bool × PTree) → Prop
  | _, _, [] => True
  | x, y, (true, c) :: cs => Meets adj x c ∧ Fits (.node 0 x c) y cs
  | x, y, (false, c) :: cs => Meets adj y c ∧ Fits x (.node 0 y c) cs

/-- One move: the path from the leaf `q` to the root is taken apart. -/
def Moves (t t' : PTree) : Prop :=
  ∃ q c0 cs, SameTree t (pile (.leaf q) (c0 :: cs.map Prod.snd)) ∧ Fits adj (.leaf q) c0 cs ∧
    SameTree t' (.node 0 (piles (.leaf q) c0 cs).1 (piles (.leaf q) c0 cs).2)

/-- Any number of moves. -/
inductive Reaches : PTree → PTree → Prop
  | same {t t' : PTree} : SameTree t t' → Reaches t t'
  | step {t t' t'' : PTree} : Reaches t t' → Moves adj t' t'' → Reaches t t''

variable {adj}

theorem Meets.congr {s s' t t' : PTree} (hs : s.leaves.Perm s'.leaves) (ht : t.leaves.Perm t'.leaves) (h : Meets adj s t) :
    Meets adj s' t' := by
  obtain ⟨a, ha, b, hb, hab⟩ := h
  exact ⟨a, hs.mem_iff.1 ha, b, ht.mem_iff.1 hb, hab⟩

theorem Meets.mono {s s' t t' : PTree} (hs : ∀ a ∈ s.leaves, a ∈ s'.leaves) (ht : ∀ a ∈ t.leaves, a ∈ t'.leaves)
    (h : Meets adj s t) : Meets adj s' t' := by
  obtain ⟨a, ha, b, hb, hab⟩ := h
  exact ⟨a, hs a ha, b, ht b hb, hab⟩

theorem Meets.symm (hadj : ∀ a b, adj a b → adj b a) {s t : PTree} (h : Meets adj s t) : Meets adj t s := by
  obtain ⟨a, ha, b, hb, hab⟩ := h
  exact ⟨b, hb, a, ha, hadj a b hab⟩

theorem meets_node {p : ℕ} {l r c : PTree} : Meets adj (.node p l r) c ↔ Meets adj l c ∨ Meets adj r c := by
  unfold Meets
  simp only [PTree.leaves, List.mem_append]
  constructor
  · rintro ⟨a, ha | ha, b, hb, hab⟩
    · exact Or.inl ⟨a, ha, b, hb, hab⟩
    · exact Or.inr ⟨a, ha, b, hb, hab⟩
  · rintro (⟨a, ha, b, hb, hab⟩ | ⟨a, ha, b, hb, hab⟩)
    · exact ⟨a, Or.inl ha, b, hb, hab⟩
    · exact ⟨a, Or.inr ha, b, hb, hab⟩

theorem Joined.congr (hadj : ∀ a b, adj a b → adj b a) {t t' : PTree} (h : SameTree t t') (hj : Joined adj t) :
    Joined adj t' := by
  induction h with
  | leaf p => trivial
  | node h1 h2 ih1 ih2 => exact ⟨hj.1.congr h1.leaves h2.leaves, ih1 hj.2.1, ih2 hj.2.2⟩
  | swap h1 h2 ih1 ih2 => exact ⟨(hj.1.congr h1.leaves h2.leaves).symm hadj, ih2 hj.2.2, ih1 hj.2.1⟩

theorem pile_append (x : PTree) (ps : List PTree) (c : PTree) : pile x (ps ++ [c]) = .node 0 (pile x ps) c := by
  simp [pile]

theorem pile_cons (x : PTree) (ps : List PTree) (c : PTree) : pile x (c :: ps) = pile (.node 0 x c) ps := rfl

theorem SameTree.pile {x x' : PTree} (h : SameTree x x') : ∀ ps : List PTree, SameTree (pile x ps) (pile x' ps)
  | [] => h
  | c :: ps => SameTree.pile (x := .node 0 x c) (x' := .node 0 x' c) (.node h (.refl c)) ps

/-- Every tree is the path from any of its leaves with the subtrees along it. -/
theorem exists_pile (t : PTree) {a : ℕ} (ha : a ∈ t.leaves) : ∃ ps, SameTree t (pile (.leaf a) ps) := by
  induction t with
  | leaf p =>
    simp only [PTree.leaves, List.mem_singleton] at ha
    subst ha
    exact ⟨[], .refl _⟩
  | node p l r ih1 ih2 =>
    simp only [PTree.leaves, List.mem_append] at ha
    rcases ha with ha | ha
    · obtain ⟨ps, h⟩ := ih1 ha
      exact ⟨ps ++ [r], by rw [pile_append]; exact .node h (.refl r)⟩
    · obtain ⟨ps, h⟩ := ih2 ha
      exact ⟨ps ++ [l], by rw [pile_append]; exact .swap (.refl l) h⟩

theorem piles_append : ∀ (x y : PTree) (cs ds : List (Bool × PTree)),
    piles x y (cs ++ ds) = piles (piles x y cs).1 (piles x y cs).2 ds
  | _, _, [], _ => rfl
  | x, y, (true, c) :: cs, ds => piles_append (.node 0 x c) y cs ds
  | x, y, (false, c) :: cs, ds => piles_append x (.node 0 y c) cs ds

theorem fits_append : ∀ (x y : PTree) (cs ds : List (Bool × PTree)),
    Fits adj x y (cs ++ ds) ↔ Fits adj x y cs ∧ Fits adj (piles x y cs).1 (piles x y cs).2 ds
  | _, _, [], _ => by simp [Fits, piles]
  | x, y, (true, c) :: cs, ds => by
    simp only [List.cons_append, Fits, piles, fits_append (.node 0 x c) y cs ds, and_assoc]
  | x, y, (false, c) :: cs, ds => by
    simp only [List.cons_append, Fits, piles, fits_append x (.node 0 y c) cs ds, and_assoc]

/-- The leaves of a pile. -/
theorem leaves_pile : ∀ (x : PTree) (ps : List PTree), (pile x ps).leaves = x.leaves ++ ps.flatMap PTree.leaves
  | x, [] => by simp [pile]
  | x, c :: ps => by rw [pile_cons, leaves_pile]; simp [PTree.leaves]

theorem leaves_piles : ∀ (x y : PTree) (cs : List (Bool × PTree)),
    ((piles x y cs).1.leaves ++ (piles x y cs).2.leaves).Perm
      (x.leaves ++ y.leaves ++ (cs.map Prod.snd).flatMap PTree.leaves)
  | x, y, [] => by simp [piles]
  | x, y, (true, c) :: cs => by
    refine (leaves_piles (.node 0 x c) y cs).trans ?_
    simp only [PTree.leaves, List.map_cons, List.flatMap_cons, List.append_assoc]
    refine List.Perm.append_left _ ?_
    rw [← List.append_assoc, ← List.append_assoc]
    exact List.Perm.append_right _ List.perm_append_comm
  | x, y, (false, c) :: cs => by
    refine (leaves_piles x (.node 0 y c) cs).trans ?_
    simp [PTree.leaves]

theorem Moves.leaves {t t' : PTree} (h : Moves adj t t') : t.leaves.Perm t'.leaves := by
  obtain ⟨q, c0, cs, h1, -, h3⟩ := h
  refine h1.leaves.trans (List.Perm.trans ?_ h3.leaves.symm)
  rw [leaves_pile]
  simp only [PTree.leaves]
  refine List.Perm.trans ?_ (leaves_piles (.leaf q) c0 cs).symm
  simp [PTree.leaves]

theorem Reaches.leaves {t t' : PTree} (h : Reaches adj t t') : t.leaves.Perm t'.leaves := by
  induction h with
  | same h => exact h.leaves
  | step _ hm ih => exact ih.trans hm.leaves

theorem joined_pile : ∀ (x : PTree) (ps : List PTree), Joined adj (pile x ps) →
    Joined adj x ∧ ∀ c ∈ ps, Joined adj c
  | x, [], h => ⟨h, by simp⟩
  | x, c :: ps, h => by
    obtain ⟨h1, h2⟩ := joined_pile (.node 0 x c) ps h
    refine ⟨h1.2.1, fun d hd => ?_⟩
    rcases List.mem_cons.1 hd with rfl | hd
    · exact h1.2.2
    · exact h2 d hd

theorem joined_piles (hadj : ∀ a b, adj a b → adj b a) : ∀ (x y : PTree) (cs : List (Bool × PTree)),
    Joined adj x → Joined adj y → Meets adj x y → (∀ c ∈ cs, Joined adj c.2) → Fits adj x y cs →
    Joined adj (piles x y cs).1 ∧ Joined adj (piles x y cs).2 ∧ Meets adj (piles x y cs).1 (piles x y cs).2
  | x, y, [], hx, hy, hxy, _, _ => ⟨hx, hy, hxy⟩
  | x, y, (true, c) :: cs, hx, hy, hxy, hc, hf =>
    joined_piles hadj (.node 0 x c) y cs ⟨hf.1, hx, hc _ List.mem_cons_self⟩ hy
      (hxy.mono (by simp [PTree.leaves]; tauto) (by simp)) (fun d hd => hc d (List.mem_cons_of_mem _ hd)) hf.2
  | x, y, (false, c) :: cs, hx, hy, hxy, hc, hf =>
    joined_piles hadj x (.node 0 y c) cs hx ⟨hf.1, hy, hc _ List.mem_cons_self⟩
      (hxy.mono (by simp) (by simp [PTree.leaves]; tauto)) (fun d hd => hc d (List.mem_cons_of_mem _ hd)) hf.2

theorem Moves.joined (hadj : ∀ a b, adj a b → adj b a) {t t' : PTree} (h : Moves adj t t') (hj : Joined adj t) :
    Joined adj t' := by
  obtain ⟨q, c0, cs, h1, h2, h3⟩ := h
  have hp := Joined.congr hadj h1 hj
  rw [pile_cons] at hp
  obtain ⟨hx, hc⟩ := joined_pile _ _ hp
  obtain ⟨k1, k2, k3⟩ := joined_piles hadj (.leaf q) c0 cs trivial hx.2.2 hx.1
    (fun c hc' => hc _ (List.mem_map_of_mem hc')) h2
  exact Joined.congr hadj h3.symm ⟨k3, k1, k2⟩

theorem Reaches.joined (hadj : ∀ a b, adj a b → adj b a) {t t' : PTree} (h : Reaches adj t t') (hj : Joined adj t) :
    Joined adj t' := by
  induction h with
  | same h => exact Joined.congr hadj h hj
  | step _ hm ih => exact hm.joined hadj ih

theorem Moves.congr {t t' s s' : PTree} (h : Moves adj t t') (hs : SameTree s t) (hs' : SameTree s' t') : Moves adj s s' := by
  obtain ⟨q, c0, cs, h1, h2, h3⟩ := h
  exact ⟨q, c0, cs, hs.trans h1, h2, hs'.trans h3⟩

theorem Reaches.pre {t t' s : PTree} (h : Reaches adj t t') (hs : SameTree s t) : Reaches adj s t' := by
  induction h with
  | same h => exact .same (hs.trans h)
  | step _ hm ih => exact .step ih hm

theorem Reaches.post {t t' s : PTree} (h : Reaches adj t t') (hs : SameTree t' s) : Reaches adj t s := by
  cases h with
  | same h => exact .same (h.trans hs)
  | step h hm => exact .step h (hm.congr (.refl _) hs.symm)

theorem Reaches.trans {t t' t'' : PTree} (h : Reaches adj t t') (h' : Reaches adj t' t'') : Reaches adj t t'' := by
  induction h' with
  | same h' => exact h.post h'
  | step _ hm ih => exact .step ih hm

/-- Below a leaf `y` that hangs from the root, everything can be moved as if `y` were not there. -/
theorem Reaches.under (hadj : ∀ a b, adj a b → adj b a) {x x' : PTree} {y : ℕ} (h : Reaches adj x x') (hx : Joined adj x)
    (hy : Meets adj x (.leaf y)) : Reaches adj (.node 0 x (.leaf y)) (.node 0 x' (.leaf y)) := by
  induction h with
  | same h => exact .same (.node h (.refl _))
  | step h hm ih =>
    next x1 x2 =>
    refine ih.trans ?_
    have hj1 := h.joined hadj hx
    have hy1 : Meets adj x1 (.leaf y) := hy.congr h.leaves (List.Perm.refl _)
    have hj2 := hm.joined hadj hj1
    have hy2 : Meets adj x2 (.leaf y) := hy1.congr hm.leaves (List.Perm.refl _)
    obtain ⟨q, c0, cs, h1, h2, h3⟩ := hm
    have hj3 := Joined.congr hadj h3 hj2
    have hy3 := hy2.congr h3.leaves (List.Perm.refl _)
    generalize hP : (piles (.leaf q) c0 cs).1 = P at *
    generalize hQ : (piles (.leaf q) c0 cs).2 = Q at *
    have hs : SameTree (.node 0 x1 (.leaf y)) (pile (.leaf q) (c0 :: (cs.map Prod.snd ++ [.leaf y]))) := by
      rw [← List.cons_append, pile_append]; exact .node h1 (.refl _)
    rcases meets_node.1 hy3 with hm' | hm'
    · -- hung on `P`
      have m1 : Moves adj (.node 0 x1 (.leaf y)) (.node 0 (.node 0 P (.leaf y)) Q) := by
        refine ⟨q, c0, cs ++ [(true, .leaf y)], by simpa using hs, (fits_append _ _ _ _).2 ⟨h2, ?_⟩, ?_⟩
        · rw [hP, hQ]; exact ⟨hm', trivial⟩
        · rw [piles_append, hP, hQ]; exact .refl _
      have m2 : Moves adj (.node 0 (.node 0 P (.leaf y)) Q) (.node 0 x2 (.leaf y)) := by
        refine ⟨y, P, [(false, Q)], ?_, ⟨hj3.1, trivial⟩, ?_⟩
        · exact .node (.swap (.refl _) (.refl _)) (.refl _)
        · exact .swap h3 (.refl _)
      exact (Reaches.same (.refl _)).step m1 |>.step m2
    · have m1 : Moves adj (.node 0 x1 (.leaf y)) (.node 0 P (.node 0 Q (.leaf y))) := by
        refine ⟨q, c0, cs ++ [(false, .leaf y)], by simpa using hs, (fits_append _ _ _ _).2 ⟨h2, ?_⟩, ?_⟩
        · rw [hP, hQ]; exact ⟨hm', trivial⟩
        · rw [piles_append, hP, hQ]; exact .refl _
      have m2 : Moves adj (.node 0 P (.node 0 Q (.leaf y))) (.node 0 x2 (.leaf y)) := by
        refine ⟨y, Q, [(false, P)], ?_, ⟨hj3.1.symm hadj, trivial⟩, ?_⟩
        · exact .swap (.refl _) (.swap (.refl _) (.refl _))
        · exact .swap (h3.trans (.swap (.refl _) (.refl _))) (.refl _)
      exact (Reaches.same (.refl _)).step m1 |>.step m2

/-- A joined tree cannot be cut. -/
theorem Joined.cut (hadj : ∀ a b, adj a b → adj b a) {t : PTree} (hj : Joined adj t) (S : ℕ → Prop) :
    (∀ a ∈ t.leaves, S a) ∨ (∀ a ∈ t.leaves, ¬ S a) ∨ ∃ a ∈ t.leaves, ∃ b ∈ t.leaves, S a ∧ ¬ S b ∧ adj a b := by
  induction t with
  | leaf p =>
    by_cases h : S p
    · left; simpa [PTree.leaves] using h
    · right; left; simpa [PTree.leaves] using h
  | node p l r ih1 ih2 =>
    obtain ⟨⟨a, ha, b, hb, hab⟩, hl, hr⟩ := hj
    simp only [PTree.leaves, List.mem_append]
    rcases ih1 hl with h1 | h1 | ⟨x, hx, y, hy, h⟩
    · rcases ih2 hr with h2 | h2 | ⟨x, hx, y, hy, h⟩
      · left; rintro c (hc | hc); exacts [h1 c hc, h2 c hc]
      · right; right; exact ⟨a, Or.inl ha, b, Or.inr hb, h1 a ha, h2 b hb, hab⟩
      · right; right; exact ⟨x, Or.inr hx, y, Or.inr hy, h⟩
    · rcases ih2 hr with h2 | h2 | ⟨x, hx, y, hy, h⟩
      · right; right; exact ⟨b, Or.inr hb, a, Or.inl ha, h2 b hb, h1 a ha, hadj a b hab⟩
      · right; left; rintro c (hc | hc); exacts [h1 c hc, h2 c hc]
      · right; right; exact ⟨x, Or.inr hx, y, Or.inr hy, h⟩
    · right; right; exact ⟨x, Or.inl hx, y, Or.inl hy, h⟩

open Classical in
/-- Everything that can be hung on the second pile is. -/
noncomputable def prefer (adj : ℕ → ℕ → Prop) : PTree → List PTree → List (Bool × PTree)
  | _, [] => []
  | y, c :: cs => if Meets adj y c then (false, c) :: prefer adj (.node 0 y c) cs else (true, c) :: prefer adj y cs

theorem prefer_snd : ∀ (y : PTree) (cs : List PTree), (prefer adj y cs).map Prod.snd = cs
  | _, [] => rfl
  | y, c :: cs => by unfold prefer; split <;> simp [prefer_snd]

/-- Only the leaves of the lowest subtree matter for what is hung on it. -/
theorem rejoin : ∀ {z z' : PTree} (cs : List PTree), z.leaves.Perm z'.leaves → Joined adj z' → Joined adj (pile z cs) →
    Joined adj (pile z' cs)
  | _, _, [], _, h, _ => h
  | z, z', c :: cs, hp, h, hj => by
    have h1 := (joined_pile (.node 0 z c) cs hj).1
    exact rejoin cs (z := .node 0 z c) (z' := .node 0 z' c) (hp.append_right _)
      ⟨h1.1.congr hp (List.Perm.refl _), h, h1.2.2⟩ hj

/-- What is left on the path, and the new subtree. -/
theorem prefer_piles (hadj : ∀ a b, adj a b → adj b a) : ∀ (x y : PTree) (cs : List PTree),
    Joined adj (pile (.node 0 x y) cs) →
    Fits adj x y (prefer adj y cs) ∧ ∃ ds, (piles x y (prefer adj y cs)).1 = pile x ds ∧
      ds.length ≤ cs.length ∧ ((∃ c ∈ cs, Meets adj y c) → ds.length < cs.length)
  | x, y, [], _ => ⟨trivial, [], rfl, le_refl _, by simp⟩
  | x, y, c :: cs, hj => by
    have h1 := (joined_pile _ _ hj).1
    have h2 := (joined_pile (.node 0 (.node 0 x y) c) cs hj).1
    by_cases h : Meets adj y c
    · have hj' : Joined adj (pile (.node 0 x (.node 0 y c)) cs) := by
        refine rejoin (z := .node 0 (.node 0 x y) c) cs (by simp [PTree.leaves]) ⟨?_, h1.2.1, h, h1.2.2, h2.2.2⟩ hj
        exact h1.1.mono (fun _ h => h) (by simp [PTree.leaves]; tauto)
      obtain ⟨f, ds, e, hl, -⟩ := prefer_piles hadj x (.node 0 y c) cs hj'
      unfold prefer
      rw [if_pos h]
      exact ⟨⟨h, f⟩, ds, e, Nat.le_succ_of_le hl, fun _ => Nat.lt_succ_of_le hl⟩
    · have hxc : Meets adj x c := (meets_node.1 h2.1).resolve_right h
      have hj' : Joined adj (pile (.node 0 (.node 0 x c) y) cs) := by
        refine rejoin (z := .node 0 (.node 0 x y) c) cs ?_ ⟨?_, ⟨hxc, h1.2.1, h2.2.2⟩, h1.2.2⟩ hj
        · simp only [PTree.leaves, List.append_assoc]
          exact List.Perm.append_left _ List.perm_append_comm
        · exact h1.1.mono (by simp [PTree.leaves]; tauto) (fun _ h => h)
      obtain ⟨f, ds, e, hl, hs⟩ := prefer_piles hadj (.node 0 x c) y cs hj'
      unfold prefer
      rw [if_neg h]
      refine ⟨⟨hxc, f⟩, c :: ds, e, Nat.succ_le_succ hl, ?_⟩
      rintro ⟨d, hd, hm⟩
      rcases List.mem_cons.1 hd with rfl | hd
      · exact absurd hm h
      · exact Nat.succ_lt_succ (hs ⟨d, hd, hm⟩)

/-- A leaf without which the others are still joined can be brought to the root. -/
theorem reaches_top (hadj : ∀ a b, adj a b → adj b a) {y : ℕ} {x0 : PTree} (hx0 : Joined adj x0) :
    ∀ (k : ℕ) (ps : List PTree) (t : PTree), ps.length ≤ k → Joined adj t → t.leaves.Nodup →
      SameTree t (pile (.leaf y) ps) → t.leaves.Perm (x0.leaves ++ [y]) →
      ∃ x, Reaches adj t (.node 0 x (.leaf y)) := by
  intro k
  induction k with
  | zero =>
    intro ps t hk _ _ hs hl
    have : ps = [] := List.length_eq_zero_iff.1 (Nat.le_zero.1 hk)
    subst this
    have h1 := hs.leaves.symm.trans hl
    have := h1.length_eq
    have h2 := x0.length_leaves_pos
    simp [pile, PTree.leaves] at this
    rw [this] at h2; simp at h2
  | succ k ih =>
    intro ps t hk hj hn hs hl
    match ps, hk, hs with
    | [], _, hs => exact ih [] t (Nat.zero_le _) hj hn hs hl
    | [c], _, hs => exact ⟨c, .same (hs.trans (.swap (.refl _) (.refl _)))⟩
    | c :: d :: cs, hk, hs =>
      have hjp := Joined.congr hadj hs hj
      obtain ⟨hf, ds, e, hle, hlt⟩ := prefer_piles hadj (.leaf y) c (d :: cs) hjp
      -- the first subtree meets another one
      have hmeet : ∃ c' ∈ d :: cs, Meets adj c c' := by
        have hp : (y :: (c.leaves ++ (d :: cs).flatMap PTree.leaves)).Perm (y :: x0.leaves) := by
          have := hs.leaves.symm.trans hl
          rw [leaves_pile] at this
          simp only [PTree.leaves, List.flatMap_cons] at this ⊢
          exact this.trans List.perm_append_comm
        have hp' := (List.perm_cons y).1 hp
        have hnd : (c.leaves ++ (d :: cs).flatMap PTree.leaves).Nodup := by
          have h1 := (hs.leaves.nodup_iff).1 hn
          rw [leaves_pile] at h1
          simp only [PTree.leaves, List.flatMap_cons, List.nodup_append] at h1 ⊢
          exact h1.2.1
        have hdis := (List.nodup_append.1 hnd).2.2
        obtain ⟨a, ha⟩ := exists_leaf c
        obtain ⟨b, hb⟩ := exists_leaf d
        have hb' : b ∈ (d :: cs).flatMap PTree.leaves := by simp [hb]
        rcases hx0.cut hadj (fun v => v ∈ c.leaves) with h | h | ⟨u, hu, v, hv, h1, h2, huv⟩
        · exact absurd rfl (hdis b (h b (hp'.mem_iff.1 (List.mem_append_right _ hb'))) b hb')
        · exact absurd ha (h a (hp'.mem_iff.1 (List.mem_append_left _ ha)))
        · have hv' := hp'.mem_iff.2 hv
          rcases List.mem_append.1 hv' with h' | h'
          · exact absurd h' h2
          · obtain ⟨c', hc', hvc⟩ := List.mem_flatMap.1 h'
            exact ⟨c', hc', u, h1, v, hvc, huv⟩
      have hlt' := hlt hmeet
      have hm : Moves adj t (.node 0 (pile (.leaf y) ds) (piles (.leaf y) c (prefer adj c (d :: cs))).2) := by
        refine ⟨y, c, prefer adj c (d :: cs), ?_, hf, ?_⟩
        · rw [prefer_snd]; exact hs
        · rw [e]; exact .refl _
      rw [← pile_append] at hm
      have hlen : (ds ++ [(piles (.leaf y) c (prefer adj c (d :: cs))).2]).length ≤ k := by
        simp only [List.length_append, List.length_cons, List.length_nil] at hk hlt' ⊢
        omega
      obtain ⟨x, hx⟩ := ih _ _ hlen (hm.joined hadj hj) (hm.leaves.nodup_iff.1 hn) (.refl _) (hm.leaves.symm.trans hl)
      exact ⟨x, ((Reaches.same (.refl _)).step hm).trans hx⟩

/-- Every tree all of whose contractions share something can be turned into every other such tree. -/
theorem reaches_all (hadj : ∀ a b, adj a b → adj b a) : ∀ (n : ℕ) (t t' : PTree), t.leaves.length ≤ n → Joined adj t →
    Joined adj t' → t.leaves.Nodup → t.leaves.Perm t'.leaves → Reaches adj t t' := by
  intro n
  induction n with
  | zero =>
    intro t t' h
    have := t.length_leaves_pos
    omega
  | succ n ih =>
    -- the other side of the root of the target, by size
    have key : ∀ (y x t : PTree), t.leaves.length ≤ n + 1 → Joined adj t → Joined adj (.node 0 x y) → t.leaves.Nodup →
        t.leaves.Perm (x.leaves ++ y.leaves) → Reaches adj t (.node 0 x y) := by
      intro y
      induction y with
      | leaf y =>
        intro x t hn hj hj' hnd hp
        have hy : y ∈ t.leaves := hp.mem_iff.2 (by simp [PTree.leaves])
        obtain ⟨ps, hps⟩ := exists_pile t hy
        obtain ⟨x', hx'⟩ := reaches_top hadj hj'.2.1 ps.length ps t (le_refl _) hj hnd hps hp
        have hjx := hx'.joined hadj hj
        have hpx : x'.leaves.Perm x.leaves := by
          have h1 := hx'.leaves.symm.trans hp
          simp only [PTree.leaves] at h1
          exact (List.perm_append_right_iff _).1 h1
        have hlen := hx'.leaves.length_eq
        simp only [PTree.leaves, List.length_append, List.length_cons, List.length_nil] at hlen
        have hnd' := hx'.leaves.nodup_iff.1 hnd
        simp only [PTree.leaves, List.nodup_append] at hnd'
        exact hx'.trans (Reaches.under hadj (ih x' x (by omega) hjx.2.1 hj'.2.1 hnd'.1 hpx) hjx.2.1 hjx.1)
      | node p y1 y2 ih1 ih2 =>
        intro x t hn hj hj' hnd hp
        -- the subtree that meets `x` goes down to a leaf of `x`
        have side : ∀ u v : PTree, Meets adj u v → Joined adj u → Joined adj v → Meets adj x u →
            (∀ (x t : PTree), t.leaves.length ≤ n + 1 → Joined adj t → Joined adj (.node 0 x v) → t.leaves.Nodup →
              t.leaves.Perm (x.leaves ++ v.leaves) → Reaches adj t (.node 0 x v)) →
            t.leaves.Perm (x.leaves ++ (u.leaves ++ v.leaves)) → Reaches adj t (.node 0 x (.node p u v)) := by
          intro u v huv hu hv hxu hih hpp
          obtain ⟨a, ha, b, hb, hab⟩ := hxu
          obtain ⟨ps, hps⟩ := exists_pile x ha
          have hjx := Joined.congr hadj hps hj'.2.1
          have hau : Meets adj (.leaf a) u := ⟨a, by simp [PTree.leaves], b, hb, hab⟩
          have hlow : ∀ (z z' : PTree) (cs : List PTree), (∀ q ∈ z.leaves, q ∈ z'.leaves) → Joined adj z' →
              Joined adj (pile z cs) → Joined adj (pile z' cs) := by
            intro z z' cs
            induction cs generalizing z z' with
            | nil => intro _ h _; exact h
            | cons c cs ihc =>
              intro hsub hz' hjz
              have h1 := (joined_pile (.node 0 z c) cs hjz).1
              refine ihc (.node 0 z c) (.node 0 z' c) ?_ ⟨h1.1.mono hsub (fun _ h => h), hz', h1.2.2⟩ hjz
              intro q hq
              simp only [PTree.leaves, List.mem_append] at hq ⊢
              exact hq.imp (hsub q) id
          have hbase : Joined adj (pile (.leaf a) (u :: ps)) :=
            hlow (.leaf a) (.node 0 (.leaf a) u) ps (by simp [PTree.leaves]) ⟨hau, trivial, hu⟩ hjx
          have hlv : (pile (.leaf a) (u :: ps)).leaves.Perm (x.leaves ++ u.leaves) := by
            refine List.Perm.trans ?_ (hps.leaves.symm.append_right _)
            rw [leaves_pile, leaves_pile]
            simp only [PTree.leaves, List.flatMap_cons, List.append_assoc]
            exact List.Perm.append_left _ List.perm_append_comm
          have h1 := hih (pile (.leaf a) (u :: ps)) t hn hj
            ⟨huv.mono (by intro q hq; rw [leaves_pile]; simp [hq]) (fun _ h => h), hbase, hv⟩ hnd
            (hpp.trans (by rw [← List.append_assoc]; exact hlv.symm.append_right _))
          refine h1.step ⟨a, u, ps.map (fun c => (true, c)) ++ [(false, v)], ?_, ?_, ?_⟩
          · have : (ps.map (fun c => (true, c)) ++ [(false, v)]).map Prod.snd = ps ++ [v] := by simp
            rw [this, ← List.cons_append, pile_append]; exact .refl _
          · rw [fits_append]
            have e : ∀ (z : PTree) (cs : List PTree), piles z u (cs.map fun c => (true, c)) = (pile z cs, u) := by
              intro z cs
              induction cs generalizing z with
              | nil => rfl
              | cons c cs ihc => exact ihc (.node 0 z c)
            have f : ∀ (z : PTree) (cs : List PTree), Joined adj (pile z cs) → Fits adj z u (cs.map fun c => (true, c)) := by
              intro z cs
              induction cs generalizing z with
              | nil => intro _; trivial
              | cons c cs ihc =>
                intro h
                exact ⟨(joined_pile (.node 0 z c) cs h).1.1, ihc (.node 0 z c) h⟩
            rw [e]
            exact ⟨f _ _ hjx, huv, trivial⟩
          · have e : ∀ (z : PTree) (cs : List PTree), piles z u (cs.map fun c => (true, c)) = (pile z cs, u) := by
              intro z cs
              induction cs generalizing z with
              | nil => rfl
              | cons c cs ihc => exact ihc (.node 0 z c)
            rw [piles_append, e]
            exact .node hps (.node (.refl _) (.refl _))
        obtain ⟨hm, hjx, hm12, hj1, hj2⟩ := hj'
        have hsym := hm.symm hadj
        rcases meets_node.1 hsym with h | h
        · exact side y1 y2 hm12 hj1 hj2 (h.symm hadj) ih2 hp
        · have := side y2 y1 (hm12.symm hadj) hj2 hj1 (h.symm hadj) ih1
            (hp.trans (List.Perm.append_left _ List.perm_append_comm))
          exact this.post (.node (.refl _) (.swap (.refl _) (.refl _)))
    intro t t' hn hj hj' hnd hp
    cases t' with
    | leaf q =>
      cases t with
      | leaf p =>
        have : p = q := by simpa [PTree.leaves] using hp
        subst this
        exact .same (.refl _)
      | node p l r =>
        have := hp.length_eq
        have h1 := l.length_leaves_pos
        have h2 := r.length_leaves_pos
        simp [PTree.leaves] at this
        omega
    | node p x y => exact (key y x t hn hj hj' hnd hp).post (.node (.refl _) (.refl _))

end PTree
end TNCO
