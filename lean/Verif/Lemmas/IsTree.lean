import Verif.Lemmas.IsValid
import Verif.Lemmas.Traverse

/-! `is_valid` plus pointer consistency plus acyclicity characterises trees. -/

namespace TNCO
open PTree

/-- Parent pointers are the inverse of child pointers. -/
def Tree.ParentsAgree (T : Tree) : Prop :=
  ∀ p < T.size, ∀ c, T.IsChild c p → (T.nodes c).parent = some p

/-- There is no directed cycle of child pointers. -/
def Tree.Acyclic (T : Tree) : Prop :=
  ∃ rank : ℕ → ℕ, ∀ p < T.size, ∀ c, T.IsChild c p → rank c < rank p

theorem sub_encodes {T : Tree} {K : Ctx} {u : PTree} {par : Option ℕ}
    (h : (K.plug u).Encodes T.nodes par) : ∃ par', u.Encodes T.nodes par' := by
  induction K generalizing u par with
  | top => exact ⟨par, h⟩
  | frame o b s' K ih =>
    obtain ⟨par', h'⟩ := ih h
    rw [encodes_fork] at h'
    exact ⟨_, h'.2.1⟩

/-- Children of a position of an encoded tree are positions of that tree. -/
theorem child_mem {T : Tree} {t : PTree} {par : Option ℕ} (h : t.Encodes T.nodes par) {p c : ℕ}
    (hp : p ∈ t.postorder) (hc : T.IsChild c p) : c ∈ t.postorder := by
  obtain ⟨K, s, rfl, rfl⟩ := exists_plug hp
  obtain ⟨par', hs⟩ := sub_encodes h
  rw [(K.postorder_plug s).mem_iff]
  cases s with
  | leaf q =>
    have hN : T.nodes q = _ := hs
    unfold Tree.IsChild at hc
    simp only [PTree.root] at hc
    rw [hN] at hc; simp at hc
  | node q l r =>
    have hN : T.nodes q = _ := hs.1
    have hc' : T.IsChild c q := hc
    unfold Tree.IsChild at hc'
    rw [hN] at hc'
    simp only [Option.some.injEq] at hc'
    rcases hc' with rfl | rfl <;> simp [postorder, root_mem]

/-- The parent of a non-root position of an encoded tree is a position of it. -/
theorem parent_mem {T : Tree} {t : PTree} {par : Option ℕ} (h : t.Encodes T.nodes par) {p : ℕ}
    (hp : p ∈ t.postorder) (hne : p ≠ t.root) :
    ∃ q ∈ t.postorder, (T.nodes p).parent = some q := by
  obtain ⟨K, s, rfl, rfl⟩ := exists_plug hp
  cases K with
  | top => simp [Ctx.plug] at hne
  | frame o q s' K =>
    obtain ⟨par', h'⟩ := sub_encodes (K := K) (by simpa [Ctx.plug] using h)
    rw [encodes_fork] at h'
    refine ⟨q, ?_, encodes_root_parent h'.2.1⟩
    rw [(Ctx.postorder_plug _ _).mem_iff]; simp [Ctx.poss]

theorem leaves_iff {T : Tree} {t : PTree} {par : Option ℕ} (h : t.Encodes T.nodes par)
    (hnd : t.postorder.Nodup) {p : ℕ} :
    p ∈ t.leaves ↔ p ∈ t.postorder ∧ (T.nodes p).c0 = none := by
  induction t generalizing par with
  | leaf q =>
    simp only [leaves, postorder, List.mem_singleton]
    constructor
    · rintro rfl; refine ⟨rfl, ?_⟩; have hN : T.nodes p = _ := h; rw [hN]
    · exact fun h => h.1
  | node q l r ihl ihr =>
    obtain ⟨hN, hl, hr⟩ := h
    simp only [postorder, List.nodup_append] at hnd
    simp only [leaves, postorder, List.mem_append, List.mem_singleton, ihl hl hnd.1.1,
      ihr hr hnd.1.2.1]
    constructor
    · rintro (h | h) <;> exact ⟨by tauto, h.2⟩
    · rintro ⟨(h | h) | h, h0⟩
      · exact Or.inl ⟨h, h0⟩
      · exact Or.inr ⟨h, h0⟩
      · subst h; rw [hN] at h0; simp at h0

theorem isTree_of_isValid {T : Tree} (hpos : 0 < T.size) (hv : T.isValid = true)
    (hpa : T.ParentsAgree) (hac : T.Acyclic) : IsTree T := by
  obtain ⟨rank, hrank⟩ := hac
  obtain ⟨hleaf, hroot, hcnt⟩ := Tree.isValid_counts hv hpos
  have hiff := (Tree.isValid_iff T).1 hv
  have hval : ∀ i < T.size, (T.nodes i).isValid = true := fun i hi => (hiff.1 i hi).2.2.2
  have hsz : T.size = 2 * T.nLeaves - 1 := hiff.2.2.2.2.1
  have hlt : ∀ p < T.size, ∀ c, T.IsChild c p → c < T.size := by
    intro p hp c hc
    have := hiff.1 p hp
    rcases hc with hc | hc
    · have := this.2.1; rw [hc] at this; simpa [Tree.refOk] using this
    · have := this.2.2.1; rw [hc] at this; simpa [Tree.refOk] using this
  have hc1 : ∀ p < T.size, ((T.nodes p).c0 = none ↔ (T.nodes p).c1 = none) := by
    intro p hp
    have := hval p hp
    unfold Node.isValid at this
    cases h0 : (T.nodes p).c0 <;> cases h1 : (T.nodes p).c1 <;> simp [h0, h1] at this ⊢
  -- existence of the subtree below every node
  have hex : ∀ n, ∀ p < T.size, rank p = n → ∃ s : PTree, s.root = p ∧
      s.Encodes T.nodes (T.nodes p).parent ∧ (∀ q ∈ s.postorder, q < T.size ∧ rank q ≤ rank p) ∧
      s.postorder.Nodup := by
    intro n
    induction n using Nat.strong_induction_on with
    | _ n ih =>
      intro p hp hn
      cases h0 : (T.nodes p).c0 with
      | none =>
        have h1 := (hc1 p hp).1 h0
        refine ⟨leaf p, rfl, ?_, by simp [postorder, hp], by simp [postorder]⟩
        simp only [Encodes]
        cases hN : T.nodes p; simp_all
      | some a =>
        cases h1 : (T.nodes p).c1 with
        | none => rw [(hc1 p hp).2 h1] at h0; simp at h0
        | some b =>
          have hca : T.IsChild a p := Or.inl h0
          have hcb : T.IsChild b p := Or.inr h1
          obtain ⟨l, rfl, hle, hlr, hln⟩ := ih (rank a) (hn ▸ hrank p hp a hca) a (hlt p hp a hca) rfl
          obtain ⟨r, rfl, hre, hrr, hrn⟩ := ih (rank b) (hn ▸ hrank p hp b hcb) b (hlt p hp b hcb) rfl
          have hra := hrank p hp _ hca
          have hrb := hrank p hp _ hcb
          rw [hpa p hp _ hca] at hle
          rw [hpa p hp _ hcb] at hre
          have hab : l.root ≠ r.root := by
            intro hab
            have := hval p hp
            unfold Node.isValid at this
            simp [h0, h1, hab, Node.isLeaf] at this
          -- the two subtrees are disjoint
          have hdisj : ∀ k, ∀ x, x ∈ l.postorder → x ∈ r.postorder → rank p - rank x = k → False := by
            intro k
            induction k using Nat.strong_induction_on with
            | _ k ihk =>
              intro x hxl hxr hk
              have hup : ∀ y, rank x < rank y → y ∈ l.postorder → y ∈ r.postorder → False := by
                intro y hy hyl hyr
                have := (hlr y hyl).2
                exact ihk (rank p - rank y) (by have := (hlr x hxl).2; omega) y hyl hyr rfl
              by_cases h1 : x = l.root
              · have h2 : x ≠ r.root := by rintro rfl; exact hab h1.symm
                obtain ⟨q, hq, hqp⟩ := parent_mem hre hxr h2
                rw [h1, encodes_root_parent hle] at hqp
                simp at hqp; subst hqp
                have := (hrr p hq).2; omega
              · obtain ⟨q, hq, hqp⟩ := parent_mem hle hxl h1
                by_cases h2 : x = r.root
                · rw [h2, encodes_root_parent hre] at hqp
                  simp at hqp; subst hqp
                  have := (hlr p hq).2; omega
                · obtain ⟨q', hq', hqp'⟩ := parent_mem hre hxr h2
                  rw [hqp] at hqp'
                  simp at hqp'; subst hqp'
                  -- q is a proper parent: its rank is larger
                  have hqs := (hlr q hq).1
                  have hchild : T.IsChild x q := by
                    -- x is a child of its recorded parent because it has exactly one lister
                    have hxs := (hlr x hxl).1
                    obtain ⟨K, s, hK, hs⟩ := exists_plug hxl
                    cases K with
                    | top => exact absurd (by rw [hK]; simpa [Ctx.plug] using hs.symm) h1
                    | frame o q2 s' K =>
                      obtain ⟨par', h'⟩ := sub_encodes (K := K) (by simpa [Ctx.plug, hK] using hle)
                      rw [encodes_fork] at h'
                      have := encodes_root_parent h'.2.1
                      rw [hs, hqp] at this
                      simp at this; subst this
                      unfold Tree.IsChild
                      rw [h'.1, hs]
                      cases o <;> simp [mkNode]
                  exact hup q (hrank q hqs x hchild) hq hq'
          refine ⟨node p l r, rfl, ⟨?_, hle, hre⟩, ?_, ?_⟩
          · cases hN : T.nodes p; simp_all
          · intro q hq
            simp only [postorder, List.mem_append, List.mem_singleton] at hq
            rcases hq with (hq | hq) | hq
            · exact ⟨(hlr q hq).1, by have := (hlr q hq).2; omega⟩
            · exact ⟨(hrr q hq).1, by have := (hrr q hq).2; omega⟩
            · subst hq; exact ⟨hp, le_refl _⟩
          · simp only [postorder, List.nodup_append, List.mem_append, List.mem_singleton]
            refine ⟨⟨hln, hrn, ?_⟩, by simp, ?_⟩
            · rintro x hx y hy rfl; exact hdisj _ x hx hy rfl
            · rintro x (hx | hx) y rfl rfl
              · have := (hlr x hx).2; omega
              · have := (hrr x hx).2; omega
  obtain ⟨t, ht, henc, hbound, hnd⟩ := hex _ (T.size - 1) (by omega) rfl
  rw [(hroot (T.size - 1) (by omega)).2 rfl] at henc
  -- every position is reached
  have hall : ∀ k, ∀ i < T.size, (∑ j ∈ Finset.range T.size, rank j) - rank i = k → i ∈ t.postorder := by
    intro k
    induction k using Nat.strong_induction_on with
    | _ k ih =>
      intro i hi hk
      by_cases hir : i = T.size - 1
      · rw [hir, ← ht]; exact t.root_mem
      · have h1 := hcnt i hi
        rw [if_neg hir] at h1
        obtain ⟨j, hj, hc⟩ := Tree.countChildren_pos (T := T) (i := i) (by omega)
        have hr := hrank j hj i hc
        have hle : rank j ≤ ∑ j ∈ Finset.range T.size, rank j :=
          Finset.single_le_sum (f := rank) (fun _ _ => Nat.zero_le _) (by simpa using hj)
        exact child_mem henc (ih _ (by omega) j hj rfl) hc
  refine ⟨t, henc, hnd, fun p => ⟨fun h => (hbound p h).1, fun h => hall _ p h rfl⟩, ht, ?_⟩
  intro p
  rw [leaves_iff henc hnd]
  constructor
  · rintro ⟨hp, h0⟩; exact (hleaf p (hbound p hp).1).1 h0
  · intro hp
    have hp' : p < T.size := by unfold Tree.nLeaves at hsz; omega
    exact ⟨hall _ p hp' rfl, (hleaf p hp').2 hp⟩

theorem IsTree.facts {T : Tree} (h : IsTree T) :
    0 < T.size ∧ T.isValid = true ∧ T.ParentsAgree ∧ T.Acyclic := by
  obtain ⟨t, ht⟩ := h
  have hl := ht.linked
  have hpa : T.ParentsAgree := by
    intro p hp c hc
    rcases hc with hc | hc
    · exact (hl.child0 p hp c hc).2
    · exact (hl.child1 p hp c hc).2
  refine ⟨hl.pos, hl.isValid, hpa, ⟨fun p => t.postorder.idxOf p, ?_⟩⟩
  intro p hp c hc
  have hcs : c < T.size := by
    rcases hc with hc | hc
    · exact (hl.child0 p hp c hc).1
    · exact (hl.child1 p hp c hc).1
  have hcp := hpa p hp c hc
  apply idxOf_child_lt none ht.enc ht.nodup ((ht.mem c).2 hcs) _ hcp
  intro hcr
  rw [hcr, encodes_root_parent ht.enc] at hcp; simp at hcp

end TNCO
