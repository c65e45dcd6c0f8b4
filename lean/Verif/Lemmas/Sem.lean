import Verif.Lemmas.All

/-! Recursive form of `IndsExact`, and rotations. -/

namespace TNCO
open PTree

/-- Indices of the leaves of a subtree. -/
abbrev PTree.L (inds : ℕ → ISet) (s : PTree) : ISet := leafInds inds s.leaves

theorem leafInds_append (inds : ℕ → ISet) (a b : List ℕ) :
    leafInds inds (a ++ b) = leafInds inds a ∪ leafInds inds b := by
  ext x; simp only [mem_leafInds, List.mem_append, Finset.mem_union]
  constructor
  · rintro ⟨p, h | h, hx⟩
    · exact Or.inl ⟨p, h, hx⟩
    · exact Or.inr ⟨p, h, hx⟩
  · rintro (⟨p, h, hx⟩ | ⟨p, h, hx⟩)
    · exact ⟨p, Or.inl h, hx⟩
    · exact ⟨p, Or.inr h, hx⟩

theorem leafInds_perm {inds : ℕ → ISet} {a b : List ℕ} (h : a.Perm b) :
    leafInds inds a = leafInds inds b := by
  ext x; simp only [mem_leafInds, h.mem_iff]

theorem leafInds_congr {inds inds' : ℕ → ISet} {a : List ℕ} (h : ∀ p ∈ a, inds' p = inds p) :
    leafInds inds' a = leafInds inds a := by
  ext x; simp only [mem_leafInds]
  constructor
  · rintro ⟨p, hp, hx⟩; exact ⟨p, hp, by rwa [← h p hp]⟩
  · rintro ⟨p, hp, hx⟩; exact ⟨p, hp, by rwa [h p hp]⟩

@[simp] theorem L_leaf (inds : ℕ → ISet) (p : ℕ) : (leaf p).L inds = inds p := by
  simp [PTree.L, leaves, leafInds]

@[simp] theorem L_fork (inds : ℕ → ISet) (o p l r) :
    (fork o p l r).L inds = l.L inds ∪ r.L inds := by
  unfold PTree.L
  rw [leafInds_perm (leaves_fork o p l r), leafInds_append]

@[simp] theorem L_node (inds : ℕ → ISet) (p l r) :
    (node p l r).L inds = l.L inds ∪ r.L inds := by
  have := L_fork inds true p l r
  simpa [fork] using this

/-- Exactness, top down: `ext` are the outputs and the indices outside. -/
def PTree.Sem (inds : ℕ → ISet) : PTree → ISet → Prop
  | leaf p, ext => inds p ⊆ ext
  | node p l r, ext => inds p = (l.L inds ∪ r.L inds) ∩ ext ∧
      l.Sem inds (ext ∪ r.L inds) ∧ r.Sem inds (ext ∪ l.L inds)

/-- Outputs and indices outside the hole. -/
def Ctx.ext (inds : ℕ → ISet) (out : ISet) : Ctx → ISet
  | .top => out
  | .frame _ _ s K => K.ext inds out ∪ s.L inds

def Ctx.Sem (inds : ℕ → ISet) (out : ISet) : Ctx → ISet → Prop
  | .top, _ => True
  | .frame _ p s K, l => inds p = (l ∪ s.L inds) ∩ K.ext inds out ∧
      s.Sem inds (K.ext inds out ∪ l) ∧ K.Sem inds out (l ∪ s.L inds)

theorem PTree.sem_fork {inds ext o p l r} : (fork o p l r).Sem inds ext ↔
    inds p = (l.L inds ∪ r.L inds) ∩ ext ∧ l.Sem inds (ext ∪ r.L inds) ∧
      r.Sem inds (ext ∪ l.L inds) := by
  cases o
  · simp only [fork, PTree.Sem, Bool.false_eq_true, if_false]
    rw [Finset.union_comm (r.L inds)]; tauto
  · simp only [fork, PTree.Sem, if_true]

theorem Ctx.sem_plug {inds out} (K : Ctx) (s : PTree) : (K.plug s).Sem inds out ↔
    K.Sem inds out (s.L inds) ∧ s.Sem inds (K.ext inds out) := by
  induction K generalizing s with
  | top => simp [Ctx.plug, Ctx.Sem, Ctx.ext]
  | frame o p c K ih =>
    simp only [Ctx.plug, ih, PTree.sem_fork, Ctx.Sem, Ctx.ext, L_fork]; tauto

theorem PTree.sem_root {inds : ℕ → ISet} {s : PTree} {ext : ISet} (h : s.Sem inds ext) :
    inds s.root = s.L inds ∩ ext := by
  cases s with
  | leaf p => simp only [root, L_leaf]; exact (Finset.inter_eq_left.2 h).symm
  | node p l r => rw [L_node]; exact h.1

theorem PTree.sem_congr {inds inds' : ℕ → ISet} {s : PTree} {ext : ISet}
    (h : ∀ p ∈ s.postorder, inds' p = inds p) (hs : s.Sem inds ext) : s.Sem inds' ext := by
  induction s generalizing ext with
  | leaf p => simpa [PTree.Sem, h p (by simp [postorder])] using hs
  | node p l r ihl ihr =>
    simp only [postorder, List.mem_append, List.mem_singleton] at h
    have h1 : l.L inds' = l.L inds := leafInds_congr fun q hq => h q (Or.inl (Or.inl (l.leaves_subset q hq)))
    have h2 : r.L inds' = r.L inds := leafInds_congr fun q hq => h q (Or.inl (Or.inr (r.leaves_subset q hq)))
    obtain ⟨hp, hl, hr⟩ := hs
    exact ⟨by rw [h p (by tauto), h1, h2, hp], by rw [h2]; exact ihl (fun q hq => h q (by tauto)) hl,
      by rw [h1]; exact ihr (fun q hq => h q (by tauto)) hr⟩

theorem PTree.L_congr {inds inds' : ℕ → ISet} {s : PTree}
    (h : ∀ p ∈ s.postorder, inds' p = inds p) : s.L inds' = s.L inds :=
  leafInds_congr fun q hq => h q (s.leaves_subset q hq)

theorem Ctx.ext_congr {inds inds' : ℕ → ISet} {out} {K : Ctx}
    (h : ∀ p ∈ K.poss, inds' p = inds p) : K.ext inds' out = K.ext inds out := by
  induction K with
  | top => rfl
  | frame o p s K ih =>
    simp only [Ctx.poss, List.mem_cons, List.mem_append] at h
    simp only [Ctx.ext]
    rw [ih (fun q hq => h q (by tauto)), PTree.L_congr (fun q hq => h q (by tauto))]

theorem Ctx.sem_congr {inds inds' : ℕ → ISet} {out l} {K : Ctx}
    (h : ∀ p ∈ K.poss, inds' p = inds p) (hs : K.Sem inds out l) : K.Sem inds' out l := by
  induction K generalizing l with
  | top => trivial
  | frame o p s K ih =>
    simp only [Ctx.poss, List.mem_cons, List.mem_append] at h
    simp only [Ctx.Sem] at hs ⊢
    rw [h p (by tauto), Ctx.ext_congr (K := K) (fun q hq => h q (by tauto)),
      PTree.L_congr (s := s) (fun q hq => h q (by tauto))]
    exact ⟨hs.1, PTree.sem_congr (fun q hq => h q (by tauto)) hs.2.1,
      ih (fun q hq => h q (by tauto)) hs.2.2⟩

theorem Ctx.mem_ext {inds : ℕ → ISet} {out} {K : Ctx} {x : ℕ} :
    x ∈ K.ext inds out ↔ x ∈ out ∨ ∃ p ∈ K.lvs, x ∈ inds p := by
  induction K with
  | top => simp [Ctx.ext, Ctx.lvs]
  | frame o p s K ih =>
    simp only [Ctx.ext, Ctx.lvs, Finset.mem_union, ih, mem_leafInds, List.mem_append]
    constructor
    · rintro ((h | ⟨q, hq, hx⟩) | ⟨q, hq, hx⟩)
      · exact Or.inl h
      · exact Or.inr ⟨q, Or.inr hq, hx⟩
      · exact Or.inr ⟨q, Or.inl hq, hx⟩
    · rintro (h | ⟨q, hq | hq, hx⟩)
      · exact Or.inl (Or.inl h)
      · exact Or.inr ⟨q, hq, hx⟩
      · exact Or.inl (Or.inr ⟨q, hq, hx⟩)

theorem sem_of_exact {inds : ℕ → ISet} {out} (K : Ctx) (s : PTree) 
    (h : ∀ (K' : Ctx) (s' : PTree), K.plug s = K'.plug s' → inds s'.root = s'.L inds ∩ K'.ext inds out) :
    s.Sem inds (K.ext inds out) := by
  induction s generalizing K with
  | leaf p =>
    have := h K (leaf p) rfl
    simp only [root, L_leaf] at this
    exact Finset.inter_eq_left.1 this.symm
  | node p l r ihl ihr =>
    refine ⟨?_, ?_, ?_⟩
    · have := h K (node p l r) rfl
      rwa [L_node] at this
    · exact ihl (Ctx.frame true p r K) (fun K' s' hh => h K' s' (by simpa [Ctx.plug, fork] using hh))
    · exact ihr (Ctx.frame false p l K) (fun K' s' hh => h K' s' (by simpa [Ctx.plug, fork] using hh))

/-- The recursive form is equivalent to the specification. -/
theorem indsExact_iff {inds : ℕ → ISet} {out} {t : PTree} :
    IndsExact inds out t ↔ t.Sem inds out := by
  have key : ∀ (K : Ctx) (s : PTree), (inds s.root = s.L inds ∩ K.ext inds out ↔ 
      ∀ x, (x ∈ inds s.root ↔ (∃ p ∈ s.leaves, x ∈ inds p) ∧ (x ∈ out ∨ ∃ p ∈ K.lvs, x ∈ inds p))) := by
    intro K s
    rw [Finset.ext_iff]
    simp only [Finset.mem_inter, Ctx.mem_ext, mem_leafInds]
  constructor
  · intro h
    exact sem_of_exact Ctx.top t (fun K' s' hh => (key K' s').2 (h K' s' hh))
  · rintro h K s rfl
    rw [Ctx.sem_plug] at h
    exact (key K s).1 (PTree.sem_root h.2)

/-- The optimizer's new index set of `B` (pointwise). -/
theorem newB_mem {dd ee cc aa : Prop} (d e c b a : Prop)
    (hd : d ↔ dd ∧ (aa ∨ cc ∨ ee)) (he : e ↔ ee ∧ (aa ∨ cc ∨ dd)) (hc : c ↔ cc ∧ (aa ∨ dd ∨ ee))
    (hb : b ↔ (dd ∨ ee) ∧ (aa ∨ cc)) (ha : a ↔ (dd ∨ ee ∨ cc) ∧ aa) :
    (((d ∧ ¬ c) ∨ (c ∧ ¬ d)) ∨ ((a ∧ b) ∧ c)) ∨ ((b ∧ d) ∧ e) ↔ (dd ∨ cc) ∧ (aa ∨ ee) := by
  rw [hd, he, hc, hb, ha]
  by_cases h1 : dd <;> by_cases h2 : ee <;> by_cases h3 : cc <;> by_cases h4 : aa <;>
    simp [h1, h2, h3, h4]

/-- The new index set of `B` computed by the optimizer (optimizer.hpp:147). -/
def newB (inds : ℕ → ISet) (A B C D E : ℕ) : ISet :=
  (inds D).xor (inds C) ∪ (inds A ∩ inds B ∩ inds C) ∪ (inds B ∩ inds D ∩ inds E)

theorem ISet.mem_xor {a b : ISet} {x : ℕ} : x ∈ a.xor b ↔ (x ∈ a ∧ x ∉ b) ∨ (x ∈ b ∧ x ∉ a) := by
  simp [ISet.xor]

/-- Rotation keeps the index sets exact. -/
theorem sem_rotate {inds : ℕ → ISet} {out} {K : Ctx} {o o' : Bool} {A B : ℕ} {d e c : PTree}
    (hd : RotDistinct K A B d e c)
    (h : (K.plug (fork o A (fork o' B d e) c)).Sem inds out) :
    (K.plug (fork o A (fork o' B d c) e)).Sem
      (Function.update inds B (newB inds A B c.root d.root e.root)) out := by
  have hnd := hd.nd
  simp only [List.nodup_cons, List.mem_cons, List.mem_append, not_or, List.nodup_append] at hnd
  obtain ⟨⟨hAB, -⟩, ⟨⟨⟨hBd, hBe⟩, hBc⟩, hBK⟩, -⟩ := hnd
  have upd : ∀ v q, q ≠ B → Function.update inds B v q = inds q := fun v q hq =>
    Function.update_of_ne hq _ _
  have cd : ∀ v, ∀ q ∈ d.postorder, Function.update inds B v q = inds q := fun v q hq =>
    upd v q (by rintro rfl; exact hBd hq)
  have ce : ∀ v, ∀ q ∈ e.postorder, Function.update inds B v q = inds q := fun v q hq =>
    upd v q (by rintro rfl; exact hBe hq)
  have cc : ∀ v, ∀ q ∈ c.postorder, Function.update inds B v q = inds q := fun v q hq =>
    upd v q (by rintro rfl; exact hBc hq)
  have cK : ∀ v, ∀ q ∈ K.poss, Function.update inds B v q = inds q := fun v q hq =>
    upd v q (by rintro rfl; exact hBK hq)
  rw [Ctx.sem_plug] at h ⊢
  simp only [PTree.sem_fork, L_fork] at h ⊢
  obtain ⟨hK, hA, ⟨hB, hsd, hse⟩, hsc⟩ := h
  generalize hv : newB inds A B c.root d.root e.root = v
  rw [PTree.L_congr (cd v), PTree.L_congr (ce v), PTree.L_congr (cc v), Ctx.ext_congr (cK v),
    Function.update_self, upd v A hAB]
  have rd := PTree.sem_root hsd
  have re := PTree.sem_root hse
  have rc := PTree.sem_root hsc
  refine ⟨?_, ?_, ⟨?_, ?_, ?_⟩, ?_⟩
  · refine Ctx.sem_congr (cK v) ?_
    convert hK using 1
    ext x; simp only [Finset.mem_union]; tauto
  · rw [hA]; ext x; simp only [Finset.mem_union, Finset.mem_inter]; tauto
  · rw [← hv]
    ext x
    have := newB_mem (dd := x ∈ d.L inds) (ee := x ∈ e.L inds) (cc := x ∈ c.L inds)
      (aa := x ∈ K.ext inds out) (x ∈ inds d.root) (x ∈ inds e.root) (x ∈ inds c.root)
      (x ∈ inds B) (x ∈ inds A)
      (by rw [rd]; simp only [Finset.mem_inter, Finset.mem_union]; tauto)
      (by rw [re]; simp only [Finset.mem_inter, Finset.mem_union]; tauto)
      (by rw [rc]; simp only [Finset.mem_inter, Finset.mem_union])
      (by rw [hB]; simp only [Finset.mem_inter, Finset.mem_union])
      (by rw [hA]; simp only [Finset.mem_inter, Finset.mem_union]; tauto)
    unfold newB
    simp only [Finset.mem_union, Finset.mem_inter, ISet.mem_xor]
    exact this
  · refine PTree.sem_congr (cd v) ?_
    convert hsd using 1
    ext x; simp only [Finset.mem_union]; tauto
  · refine PTree.sem_congr (cc v) ?_
    convert hsc using 1
    ext x; simp only [Finset.mem_union]; tauto
  · refine PTree.sem_congr (ce v) ?_
    convert hse using 1
    ext x; simp only [Finset.mem_union]; tauto

/-- A contraction node is locally valid (ctree.hpp:141-143). -/
def LocQ (inds : ℕ → ISet) (p a b : ℕ) : Prop :=
  (inds a).xor (inds b) ⊆ inds p ∧ inds p ⊆ inds a ∪ inds b

/-- The operands of a contraction share an index. -/
def ShQ (inds : ℕ → ISet) (_p a b : ℕ) : Prop := (inds a ∩ inds b).Nonempty

theorem LocQ.symm {inds : ℕ → ISet} {p a b : ℕ} (h : LocQ inds p a b) : LocQ inds p b a := by
  refine ⟨?_, by rw [Finset.union_comm]; exact h.2⟩
  intro x hx; apply h.1
  rw [ISet.mem_xor] at *; tauto

theorem ShQ.symm {inds : ℕ → ISet} (p a b : ℕ) (h : ShQ inds p a b) : ShQ inds p b a := by
  unfold ShQ at *; rwa [Finset.inter_comm]

theorem PTree.sem_loc {inds : ℕ → ISet} {s : PTree} {ext : ISet} (h : s.Sem inds ext) :
    s.All (LocQ inds) := by
  induction s generalizing ext with
  | leaf p => trivial
  | node p l r ihl ihr =>
    obtain ⟨hp, hl, hr⟩ := h
    refine ⟨?_, ihl hl, ihr hr⟩
    have rl := PTree.sem_root hl
    have rr := PTree.sem_root hr
    constructor
    · intro x hx
      rw [ISet.mem_xor, rl, rr] at hx
      rw [hp]
      simp only [Finset.mem_union, Finset.mem_inter] at *; tauto
    · intro x hx
      rw [hp] at hx
      rw [rl, rr]
      simp only [Finset.mem_union, Finset.mem_inter] at *; tauto

/-- The new index set of `B` is locally valid, using only local validity. -/
theorem newB_loc {inds : ℕ → ISet} {A B C D E : ℕ} (hA : LocQ inds A B C) (hB : LocQ inds B D E) :
    (inds D).xor (inds C) ⊆ newB inds A B C D E ∧ newB inds A B C D E ⊆ inds D ∪ inds C ∧
    (newB inds A B C D E).xor (inds E) ⊆ inds A ∧ inds A ⊆ newB inds A B C D E ∪ inds E := by
  have pt : ∀ x, ((x ∈ inds B ∧ x ∉ inds C) ∨ (x ∈ inds C ∧ x ∉ inds B) → x ∈ inds A) ∧
      (x ∈ inds A → x ∈ inds B ∨ x ∈ inds C) ∧
      ((x ∈ inds D ∧ x ∉ inds E) ∨ (x ∈ inds E ∧ x ∉ inds D) → x ∈ inds B) ∧
      (x ∈ inds B → x ∈ inds D ∨ x ∈ inds E) := by
    intro x
    refine ⟨fun h => hA.1 (ISet.mem_xor.2 h), fun h => by simpa using hA.2 h,
      fun h => hB.1 (ISet.mem_xor.2 h), fun h => by simpa using hB.2 h⟩
  refine ⟨?_, ?_, ?_, ?_⟩ <;> intro x hx <;> obtain ⟨p1, p2, p3, p4⟩ := pt x <;>
    simp only [newB, Finset.mem_union, Finset.mem_inter, ISet.mem_xor] at hx ⊢ <;>
    by_cases h1 : x ∈ inds A <;> by_cases h2 : x ∈ inds B <;> by_cases h3 : x ∈ inds C <;>
    by_cases h4 : x ∈ inds D <;> by_cases h5 : x ∈ inds E <;>
    simp_all

/-- The rotated tree still joins sharing tensors at `A`, when the index sets are exact. -/
theorem newB_shared {inds : ℕ → ISet} {out} {K : Ctx} {o o' : Bool} {A B : ℕ} {d e c : PTree}
    (h : (K.plug (fork o A (fork o' B d e) c)).Sem inds out)
    (hde : (inds d.root ∩ inds e.root).Nonempty) :
    (newB inds A B c.root d.root e.root ∩ inds e.root).Nonempty := by
  obtain ⟨x, hx⟩ := hde
  rw [Ctx.sem_plug] at h
  simp only [PTree.sem_fork, L_fork] at h
  obtain ⟨-, hA, ⟨hB, hsd, hse⟩, hsc⟩ := h
  have rd := PTree.sem_root hsd
  have re := PTree.sem_root hse
  have rc := PTree.sem_root hsc
  refine ⟨x, ?_⟩
  simp only [newB, Finset.mem_union, Finset.mem_inter, ISet.mem_xor] at *
  refine ⟨?_, hx.2⟩
  by_cases hc : x ∈ inds c.root
  · right
    refine ⟨⟨?_, hx.1⟩, hx.2⟩
    rw [hB]; rw [rd] at hx; rw [rc] at hc
    simp only [Finset.mem_union, Finset.mem_inter] at *; tauto
  · left; left; left; exact ⟨hx.1, hc⟩

end TNCO
