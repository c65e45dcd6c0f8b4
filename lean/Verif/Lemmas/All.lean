import Verif.Lemmas.Swap
import Verif.Spec.Inds

/-! Predicates that hold at every internal node, and their behaviour under rotations. -/

namespace TNCO
open PTree

/-- `Q p a b` holds at every internal node `p` with children `a`, `b`. -/
def PTree.All (Q : ℕ → ℕ → ℕ → Prop) : PTree → Prop
  | leaf _ => True
  | node p l r => Q p l.root r.root ∧ l.All Q ∧ r.All Q

/-- The same for the frames of a context whose hole has root `h`. -/
def Ctx.All (Q : ℕ → ℕ → ℕ → Prop) : Ctx → ℕ → Prop
  | .top, _ => True
  | .frame o p s K, h => (if o then Q p h s.root else Q p s.root h) ∧ s.All Q ∧ K.All Q p

theorem PTree.all_fork {Q : ℕ → ℕ → ℕ → Prop} {o p l r} : (fork o p l r).All Q ↔
    (if o then Q p l.root r.root else Q p r.root l.root) ∧ l.All Q ∧ r.All Q := by
  cases o <;> simp [fork, PTree.All] <;> tauto

theorem PTree.all_fork_symm {Q : ℕ → ℕ → ℕ → Prop} (hs : ∀ p a b, Q p a b → Q p b a) {o p l r} :
    (fork o p l r).All Q ↔ Q p l.root r.root ∧ l.All Q ∧ r.All Q := by
  rw [all_fork]
  cases o
  · simp only [Bool.false_eq_true, if_false]
    exact ⟨fun h => ⟨hs _ _ _ h.1, h.2⟩, fun h => ⟨hs _ _ _ h.1, h.2⟩⟩
  · simp

theorem Ctx.all_plug {Q : ℕ → ℕ → ℕ → Prop} (K : Ctx) (s : PTree) :
    (K.plug s).All Q ↔ K.All Q s.root ∧ s.All Q := by
  induction K generalizing s with
  | top => simp [Ctx.plug, Ctx.All]
  | frame o p c K ih =>
    simp only [Ctx.plug, Ctx.All, ih, all_fork, root_fork]; tauto

theorem PTree.all_mono {Q Q' : ℕ → ℕ → ℕ → Prop} {s : PTree}
    (hQ : ∀ p ∈ s.postorder, ∀ a ∈ s.postorder, ∀ b ∈ s.postorder, Q p a b → Q' p a b)
    (h : s.All Q) : s.All Q' := by
  induction s with
  | leaf p => trivial
  | node p l r ihl ihr =>
    simp only [PTree.All, postorder, List.mem_append, List.mem_singleton] at *
    refine ⟨hQ _ (by tauto) _ (by have := l.root_mem; tauto) _ (by have := r.root_mem; tauto) h.1,
      ihl (fun p hp a ha b hb => hQ p (by tauto) a (by tauto) b (by tauto)) h.2.1,
      ihr (fun p hp a ha b hb => hQ p (by tauto) a (by tauto) b (by tauto)) h.2.2⟩

theorem Ctx.all_mono {Q Q' : ℕ → ℕ → ℕ → Prop} {K : Ctx} {h : ℕ}
    (hQ : ∀ p ∈ K.poss, ∀ a, (a = h ∨ a ∈ K.poss) → ∀ b, (b = h ∨ b ∈ K.poss) → Q p a b → Q' p a b)
    (hK : K.All Q h) : K.All Q' h := by
  induction K generalizing h with
  | top => trivial
  | frame o p s K ih =>
    simp only [Ctx.All, Ctx.poss, List.mem_cons, List.mem_append] at *
    have hs := s.root_mem
    refine ⟨?_, PTree.all_mono (fun p hp a ha b hb => hQ p (by tauto) a (by tauto) b (by tauto)) hK.2.1,
      ih (fun p hp a ha b hb => hQ p (by tauto) a (by tauto) b (by tauto)) hK.2.2⟩
    cases o
    · exact hQ _ (by tauto) _ (by tauto) _ (by tauto) hK.1
    · exact hQ _ (by tauto) _ (by tauto) _ (by tauto) hK.1

/-- `All` at pointer level. -/
theorem all_iff {T : Tree} {t : PTree} {Q : ℕ → ℕ → ℕ → Prop} {par} (h : t.Encodes T.nodes par) :
    t.All Q ↔ ∀ p ∈ t.postorder, ∀ a b, (T.nodes p).c0 = some a → (T.nodes p).c1 = some b → Q p a b := by
  induction t generalizing par with
  | leaf p =>
    have hN : T.nodes p = _ := h
    simp [PTree.All, postorder, hN]
  | node p l r ihl ihr =>
    obtain ⟨hN, hl, hr⟩ := h
    simp only [PTree.All, postorder, List.mem_append, List.mem_singleton, ihl hl, ihr hr]
    constructor
    · rintro ⟨h1, h2, h3⟩ q ((hq | hq) | rfl) a b ha hb
      · exact h2 q hq a b ha hb
      · exact h3 q hq a b ha hb
      · rw [hN] at ha hb; cases ha; cases hb; exact h1
    · intro h
      refine ⟨h p (by tauto) _ _ (by rw [hN]) (by rw [hN]), fun q hq => h q (by tauto),
        fun q hq => h q (by tauto)⟩

end TNCO
