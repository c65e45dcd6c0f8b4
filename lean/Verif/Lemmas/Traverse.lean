import Verif.Model.Traverse
import Verif.Lemmas.Linked

/-! Helper lemmas on the explicit-stack traversal. -/

namespace TNCO
open PTree

/-- Number of loop iterations spent on a subtree. -/
def PTree.steps : PTree → ℕ
  | leaf _ => 1
  | node _ l r => l.steps + r.steps + 2

theorem PTree.steps_le (t : PTree) : t.steps ≤ 2 * t.postorder.length - 1 ∧ 0 < t.steps := by
  induction t with
  | leaf p => simp [steps, postorder]
  | node p l r ihl ihr => simp [steps, postorder]; omega

theorem traverseLoop_sub {T : Tree} (s : PTree) (par : Option ℕ) (henc : s.Encodes T.nodes par)
    (hnd : s.postorder.Nodup) (fuel : ℕ) (stack : List ℕ) (vis : ℕ → Bool) (out : List ℕ)
    (hv : ∀ p ∈ s.postorder, vis p = false) :
    ∃ vis', (∀ p, p ∉ s.postorder → vis' p = vis p) ∧
      traverseLoop T (fuel + s.steps) (s.root :: stack) vis out =
        traverseLoop T fuel stack vis' (out ++ s.postorder) := by
  induction s generalizing par fuel stack vis out with
  | leaf p =>
    refine ⟨vis, fun _ _ => rfl, ?_⟩
    simp only [Encodes] at henc
    simp [steps, root, postorder, traverseLoop, Node.isLeaf, henc]
  | node p l r ihl ihr =>
    obtain ⟨hN, hl, hr⟩ := henc
    simp only [postorder, List.nodup_append, List.mem_append, List.mem_singleton] at hnd hv
    obtain ⟨⟨hndl, hndr, hlr⟩, -, hp⟩ := hnd
    have hpl : p ∉ l.postorder := fun h => hp p (Or.inl h) p rfl rfl
    have hpr : p ∉ r.postorder := fun h => hp p (Or.inr h) p rfl rfl
    -- first visit of p
    have e1 : traverseLoop T (fuel + (node p l r).steps) ((node p l r).root :: stack) vis out =
        traverseLoop T (fuel + 1 + r.steps + l.steps) (l.root :: r.root :: p :: stack)
          (Function.update vis p true) out := by
      have : fuel + (node p l r).steps = (fuel + 1 + r.steps + l.steps) + 1 := by
        simp [steps]; omega
      rw [this]
      simp [traverseLoop, root, hN, Node.isLeaf, hv p (Or.inr rfl)]
    obtain ⟨v1, hv1, e2⟩ := ihl (some p) hl hndl (fuel + 1 + r.steps) (r.root :: p :: stack)
      (Function.update vis p true) out (by
        intro q hq
        rw [Function.update_of_ne (by rintro rfl; exact hpl hq)]
        exact hv q (by tauto))
    obtain ⟨v2, hv2, e3⟩ := ihr (some p) hr hndr (fuel + 1) (p :: stack) v1 (out ++ l.postorder) (by
        intro q hq
        rw [hv1 q (fun h => hlr q h q hq rfl),
          Function.update_of_ne (by rintro rfl; exact hpr hq)]
        exact hv q (by tauto))
    refine ⟨v2, ?_, ?_⟩
    · intro q hq
      simp only [postorder, List.mem_append, List.mem_singleton, not_or] at hq
      rw [hv2 q hq.1.2, hv1 q hq.1.1, Function.update_of_ne hq.2]
    · rw [e1, e2, e3]
      have hvp : v2 p = true := by
        rw [hv2 p hpr, hv1 p hpl, Function.update_self]
      simp [traverseLoop, hvp, postorder]

theorem traverse_eq {T : Tree} {t : PTree} (h : WellFormed T t) {fuel : ℕ}
    (hf : 2 * T.size ≤ fuel) : traverse fuel T = some t.postorder := by
  have hlen : t.postorder.length = T.size := by
    have h1 : t.postorder.Perm (List.range T.size) :=
      (List.perm_ext_iff_of_nodup h.nodup List.nodup_range).2 (by simpa using h.mem)
    simpa using h1.length_eq
  have hst := t.steps_le
  obtain ⟨vis', -, e⟩ := traverseLoop_sub t none h.enc h.nodup (fuel - t.steps) [] (fun _ => false) []
    (by simp)
  have hfu : fuel - t.steps + t.steps = fuel := by omega
  rw [hfu] at e
  unfold traverse
  rw [← h.root, e]
  cases h' : fuel - t.steps <;> simp [traverseLoop]

/-- A child precedes its parent in post-order. -/
theorem idxOf_child_lt {T : Tree} {t : PTree} (par : Option ℕ) (henc : t.Encodes T.nodes par)
    (hnd : t.postorder.Nodup) {p q : ℕ} (hp : p ∈ t.postorder) (hpr : p ≠ t.root)
    (hq : (T.nodes p).parent = some q) : t.postorder.idxOf p < t.postorder.idxOf q := by
  induction t generalizing par with
  | leaf a => simp [postorder, root] at *; exact absurd hp hpr
  | node a l r ihl ihr =>
    obtain ⟨hN, hl, hr⟩ := henc
    simp only [postorder, List.nodup_append, List.mem_append, List.mem_singleton] at hnd hp
    obtain ⟨⟨hndl, hndr, hlr⟩, -, ha⟩ := hnd
    have hal : a ∉ l.postorder := fun h => ha a (Or.inl h) a rfl rfl
    have har : a ∉ r.postorder := fun h => ha a (Or.inr h) a rfl rfl
    simp only [root] at hpr
    have hia : (l.postorder ++ r.postorder ++ [a]).idxOf a = l.postorder.length + r.postorder.length := by
      rw [List.idxOf_append_of_notMem (by simp [hal, har])]; simp
    simp only [postorder]
    rcases hp with (hp | hp) | hp
    · have hil : (l.postorder ++ r.postorder ++ [a]).idxOf p = l.postorder.idxOf p := by
        rw [List.append_assoc, List.idxOf_append_of_mem hp]
      have := List.idxOf_lt_length_of_mem hp
      by_cases hpl : p = l.root
      · have : q = a := by
          have := encodes_root_parent hl
          rw [← hpl, hq] at this; simpa using this
        subst this; omega
      · have ih := ihl _ hl hndl hp hpl
        have hql : q ∈ l.postorder := by
          by_contra hcon
          have := List.idxOf_eq_length hcon
          have hq' : l.postorder.idxOf q = l.postorder.length := this
          -- the parent of a non-root of `l` is in `l`
          obtain ⟨K, s, rfl, rfl⟩ := exists_plug hp
          have key : ∀ (K : Ctx) (s : PTree) (par : Option ℕ), (K.plug s).Encodes T.nodes par →
              s.root ≠ (K.plug s).root → ∃ b, (T.nodes s.root).parent = some b ∧
                b ∈ (K.plug s).postorder := by
            intro K s par hK hne
            cases K with
            | top => simp [Ctx.plug] at hne
            | frame o b s' K =>
              refine ⟨b, ?_, ?_⟩
              · have : ∀ (K : Ctx) (u : PTree) (par : Option ℕ), (K.plug u).Encodes T.nodes par →
                    ∃ par', u.Encodes T.nodes par' := by
                  intro K
                  induction K with
                  | top => intro u par h; exact ⟨par, h⟩
                  | frame o b s' K ih =>
                    intro u par h
                    obtain ⟨par', h'⟩ := ih _ _ h
                    rw [encodes_fork] at h'
                    exact ⟨_, h'.2.1⟩
                obtain ⟨par', h'⟩ := this K _ _ hK
                rw [encodes_fork] at h'
                exact encodes_root_parent h'.2.1
              · rw [(Ctx.postorder_plug _ _).mem_iff]; simp [Ctx.poss]
          obtain ⟨b, hb, hb'⟩ := key K s _ hl hpl
          rw [hq] at hb
          cases hb; exact hcon hb'
        rw [hil, List.append_assoc, List.idxOf_append_of_mem hql]; exact ih
    · have hpl : p ∉ l.postorder := fun h => hlr p h p hp rfl
      have hir : (l.postorder ++ r.postorder ++ [a]).idxOf p =
          l.postorder.length + r.postorder.idxOf p := by
        rw [List.append_assoc, List.idxOf_append_of_notMem hpl, List.idxOf_append_of_mem hp]
      have := List.idxOf_lt_length_of_mem hp
      by_cases hpr' : p = r.root
      · have : q = a := by
          have := encodes_root_parent hr
          rw [← hpr', hq] at this; simpa using this
        subst this; omega
      · have ih := ihr _ hr hndr hp hpr'
        by_cases hqr : q ∈ r.postorder
        · have hql : q ∉ l.postorder := fun h => hlr q h q hqr rfl
          rw [hir, List.append_assoc, List.idxOf_append_of_notMem hql, List.idxOf_append_of_mem hqr]
          omega
        · exfalso
          obtain ⟨K, s, rfl, rfl⟩ := exists_plug hp
          have hpar : ∀ (K : Ctx) (u : PTree) (par : Option ℕ), (K.plug u).Encodes T.nodes par →
                ∃ par', u.Encodes T.nodes par' := by
            intro K
            induction K with
            | top => intro u par h; exact ⟨par, h⟩
            | frame o b s' K ih =>
              intro u par h
              obtain ⟨par', h'⟩ := ih _ _ h
              rw [encodes_fork] at h'
              exact ⟨_, h'.2.1⟩
          cases K with
          | top => simp [Ctx.plug] at hpr'
          | frame o b s' K =>
            obtain ⟨par', h'⟩ := hpar K _ _ hr
            rw [encodes_fork] at h'
            have := encodes_root_parent h'.2.1
            rw [hq] at this
            cases this
            apply hqr
            rw [(Ctx.postorder_plug _ _).mem_iff]; simp [Ctx.poss]
    · exact absurd hp hpr

end TNCO
