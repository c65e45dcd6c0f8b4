import Verif.Spec.TraverseTree
import Verif.Lemmas.Traverse
import Verif.Lemmas.PathCore

/-! Helper lemmas for C85. -/

namespace TNCO
open PTree

theorem walk_follow {σ E : Type} {tree : σ → Tree} {cb : Callback σ E} (hr : KeepsTree tree cb) {T : Tree} (fuel : ℕ) :
    ∀ (stack : List ℕ) (vis : ℕ → Bool) (out L : List ℕ) (s : σ) (k : ℕ), tree s = T → traverseLoop T fuel stack vis out = some L →
    ∃ calls, L = out ++ calls ∧
      walkLoop tree cb fuel stack vis s k = some ((follow cb calls s).1, k + begun cb calls s, (follow cb calls s).2) := by
  induction fuel with
  | zero =>
    intro stack vis out L s k hs h
    cases stack with
    | nil => simp only [traverseLoop, Option.some.injEq] at h; exact ⟨[], by simp [h], by simp [walkLoop, follow, begun]⟩
    | cons p st => simp [traverseLoop] at h
  | succ fuel ih =>
    intro stack vis out L s k hs h
    cases stack with
    | nil => simp only [traverseLoop, Option.some.injEq] at h; exact ⟨[], by simp [h], by simp [walkLoop, follow, begun]⟩
    | cons p st =>
      rw [traverseLoop] at h
      rw [walkLoop, hs]
      by_cases hc : (vis p || (T.nodes p).isLeaf) = true
      · rw [if_pos hc] at h ⊢
        obtain ⟨calls, hL, hw⟩ := ih st vis (out ++ [p]) L (cb p s).1 (k + 1) ((hr p s).trans hs) h
        refine ⟨p :: calls, by simp [hL], ?_⟩
        rcases hcb : cb p s with ⟨s', e⟩
        rw [hcb] at hw
        cases e with
        | none => simp only [follow, begun, hcb, hw]; simp; omega
        | some e => simp [follow, begun, hcb]
      · rw [if_neg hc] at h ⊢
        rcases h0 : (T.nodes p).c0 with _ | a
        · rw [h0] at h; simp at h
        rcases h1 : (T.nodes p).c1 with _ | b
        · rw [h0, h1] at h; simp at h
        rw [h0, h1] at h
        exact ih _ _ _ _ _ _ hs h

/-- The calls for a subtree follow each other. -/
theorem sub_infix {s t : PTree} (h : Sub s t) : ∃ a b, t.postorder = a ++ s.postorder ++ b := by
  induction h with
  | refl => exact ⟨[], [], by simp⟩
  | @left p l r _ ih => obtain ⟨a, b, e⟩ := ih; exact ⟨a, b ++ r.postorder ++ [p], by simp [postorder, e]⟩
  | @right p l r _ ih => obtain ⟨a, b, e⟩ := ih; exact ⟨l.postorder ++ a, b ++ [p], by simp [postorder, e]⟩

theorem under_root {T : Tree} {s : PTree} (par : Option ℕ) (henc : s.Encodes T.nodes par) {p : ℕ} (hp : p ∈ s.postorder) :
    Under T p s.root := by
  induction s generalizing par with
  | leaf q => simp only [postorder, List.mem_singleton] at hp; subst hp; exact .refl
  | node q l r ihl ihr =>
    obtain ⟨_, hl, hr⟩ := henc
    simp only [postorder, List.mem_append, List.mem_singleton] at hp
    rcases hp with (hp | hp) | rfl
    · exact (ihl _ hl hp).tail (encodes_root_parent hl)
    · exact (ihr _ hr hp).tail (encodes_root_parent hr)
    · exact .refl

theorem under_child {T : Tree} {s : PTree} (par : Option ℕ) (henc : s.Encodes T.nodes par) {p q : ℕ} (hq : q ∈ s.postorder)
    (hc : (T.nodes q).c0 = some p ∨ (T.nodes q).c1 = some p) : p ∈ s.postorder := by
  induction s generalizing par with
  | leaf x => simp only [postorder, List.mem_singleton] at hq; subst hq; simp only [Encodes] at henc; rw [henc] at hc; simp at hc
  | node x l r ihl ihr =>
    obtain ⟨hN, hl, hr⟩ := henc
    simp only [postorder, List.mem_append, List.mem_singleton] at hq ⊢
    rcases hq with (hq | hq) | rfl
    · exact Or.inl (Or.inl (ihl _ hl hq))
    · exact Or.inl (Or.inr (ihr _ hr hq))
    · rw [hN] at hc
      simp only [Option.some.injEq] at hc
      rcases hc with rfl | rfl
      · exact Or.inl (Or.inl l.root_mem)
      · exact Or.inl (Or.inr r.root_mem)

theorem mem_under {T : Tree} (hl : Linked T) {s : PTree} (par : Option ℕ) (henc : s.Encodes T.nodes par) {p : ℕ} (hp : p < T.size)
    (h : Under T p s.root) : p ∈ s.postorder := by
  unfold Under at h
  generalize hx : s.root = x at h
  revert hp
  induction h using Relation.ReflTransGen.head_induction_on with
  | refl => intro _; rw [← hx]; exact s.root_mem
  | head hab _ ih =>
    intro hp
    obtain ⟨hq, hc⟩ := hl.parent _ hp _ hab
    exact under_child par henc (ih hq) hc

theorem follow_append {σ E : Type} (cb : Callback σ E) (a b : List ℕ) (s : σ) (h : (follow cb a s).2 = none) :
    follow cb (a ++ b) s = follow cb b (follow cb a s).1 := by
  induction a generalizing s with
  | nil => rfl
  | cons p a ih =>
    simp only [List.cons_append, follow] at h ⊢
    by_cases hp : (cb p s).2.isSome = true
    · rw [if_pos hp] at h; rw [h] at hp; simp at hp
    · rw [if_neg hp] at h; rw [if_neg hp, if_neg hp]; exact ih _ h

theorem begun_le {σ E : Type} (cb : Callback σ E) (l : List ℕ) (s : σ) : begun cb l s ≤ l.length := by
  induction l generalizing s with
  | nil => simp [begun]
  | cons p l ih =>
    simp only [begun, List.length_cons]
    split
    · omega
    · have := ih (cb p s).1; omega

/-- The calls made are the first `begun`. If one of them raises, it is the last. -/
theorem follow_begun {σ E : Type} (cb : Callback σ E) (l : List ℕ) (s : σ) :
    follow cb (l.take (begun cb l s)) s = follow cb l s ∧
      ((follow cb l s).2 = none → begun cb l s = l.length) ∧
      ∀ e, (follow cb l s).2 = some e → ∃ a p b, l = a ++ p :: b ∧ begun cb l s = a.length + 1 ∧ (follow cb a s).2 = none ∧
        cb p (follow cb a s).1 = follow cb l s := by
  induction l generalizing s with
  | nil => simp [follow, begun]
  | cons p l ih =>
    obtain ⟨h1, h2, h3⟩ := ih (cb p s).1
    by_cases hp : (cb p s).2.isSome = true
    · have hf : follow cb (p :: l) s = cb p s := by rw [follow, if_pos hp]
      have hb : begun cb (p :: l) s = 1 := by rw [begun, if_pos hp]
      refine ⟨?_, ?_, ?_⟩
      · rw [hb, hf]; simp [follow, hp]
      · rw [hf]; intro hn; rw [hn] at hp; simp at hp
      · intro e _
        exact ⟨[], p, l, by simp, by simp [hb], by simp [follow], by rw [hf]; rfl⟩
    · have hf : follow cb (p :: l) s = follow cb l (cb p s).1 := by rw [follow, if_neg hp]
      have hb : begun cb (p :: l) s = begun cb l (cb p s).1 + 1 := by rw [begun, if_neg hp]
      refine ⟨?_, ?_, ?_⟩
      · rw [hb, List.take_succ_cons, follow, if_neg hp, h1, hf]
      · rw [hf, hb]; intro hn; simp [h2 hn]
      · rw [hf, hb]; intro e he
        obtain ⟨a, q, b, e1, e2, e3, e4⟩ := h3 e he
        refine ⟨p :: a, q, b, by simp [e1], by simp [e2], ?_, ?_⟩
        · rw [follow, if_neg hp]; exact e3
        · rw [follow, if_neg hp]; exact e4

end TNCO
