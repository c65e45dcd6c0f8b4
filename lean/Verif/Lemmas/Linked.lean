import Verif.Lemmas.Swap
import Mathlib.Data.List.Range

/-! Pointer-level consequences of well-formedness. -/

namespace TNCO
open PTree

/-- Pointer facts that hold in every contraction tree. -/
structure Linked (T : Tree) : Prop where
  pos : 0 < T.size
  size : T.size = 2 * T.nLeaves - 1
  child0 : ∀ p < T.size, ∀ c, (T.nodes p).c0 = some c → c < T.size ∧ (T.nodes c).parent = some p
  child1 : ∀ p < T.size, ∀ c, (T.nodes p).c1 = some c → c < T.size ∧ (T.nodes c).parent = some p
  parent : ∀ p < T.size, ∀ q, (T.nodes p).parent = some q →
    q < T.size ∧ ((T.nodes q).c0 = some p ∨ (T.nodes q).c1 = some p)
  root : ∀ p < T.size, ((T.nodes p).parent = none ↔ p = T.size - 1)
  leaf0 : ∀ p < T.size, ((T.nodes p).c0 = none ↔ p < T.nLeaves)
  leaf1 : ∀ p < T.size, ((T.nodes p).c1 = none ↔ p < T.nLeaves)
  distinct : ∀ p < T.size, ∀ c, (T.nodes p).c0 = some c → (T.nodes p).c1 ≠ some c
  parent_ne : ∀ p < T.size, ∀ q, (T.nodes p).parent = some q →
    (T.nodes p).c0 ≠ some q ∧ (T.nodes p).c1 ≠ some q

/-- Splitting a well-formed tree at a position. -/
theorem WellFormed.split {T : Tree} {t : PTree} (h : WellFormed T t) {p : ℕ} (hp : p < T.size) :
    (∃ K, t = Ctx.plug K (PTree.leaf p) ∧ T.nodes p = ⟨none, none, K.par⟩ ∧ K.Enc T.nodes p) ∨
    (∃ K l r, t = Ctx.plug K (PTree.node p l r) ∧ T.nodes p = ⟨some l.root, some r.root, K.par⟩ ∧
      l.Encodes T.nodes (some p) ∧ r.Encodes T.nodes (some p) ∧ K.Enc T.nodes p) := by
  obtain ⟨K, s, rfl, rfl⟩ := exists_plug ((h.mem p).2 hp)
  have henc := h.enc
  rw [Ctx.encodes_plug] at henc
  cases s with
  | leaf q => exact Or.inl ⟨K, rfl, henc.2, henc.1⟩
  | node q l r => exact Or.inr ⟨K, l, r, rfl, henc.2.1, henc.2.2.1, henc.2.2.2, henc.1⟩

theorem WellFormed.size_eq {T : Tree} {t : PTree} (h : WellFormed T t) :
    T.size = 2 * T.nLeaves - 1 ∧ t.leaves.length = T.nLeaves ∧ 0 < T.size := by
  have h1 : t.postorder.Perm (List.range T.size) :=
    (List.perm_ext_iff_of_nodup h.nodup List.nodup_range).2 (by simpa using h.mem)
  have h2 := h1.length_eq
  have h3 := t.length_postorder
  have h4 := t.length_leaves_pos
  simp only [List.length_range] at h2
  unfold Tree.nLeaves
  omega

theorem mem_leaves_plug_leaf {K : Ctx} {p : ℕ} : p ∈ (K.plug (PTree.leaf p)).leaves := by
  rw [(K.leaves_plug _).mem_iff]; simp [leaves]

theorem WellFormed.leaf_iff {T : Tree} {t : PTree} (h : WellFormed T t) {p : ℕ} (hp : p < T.size) :
    (p < T.nLeaves ↔ T.nodes p = ⟨none, none, (T.nodes p).parent⟩) := by
  unfold Tree.nLeaves
  rw [← h.leaves]
  rcases h.split hp with ⟨K, ht, hN, -⟩ | ⟨K, l, r, ht, hN, -⟩
  · constructor
    · intro; rw [hN]
    · intro; rw [ht]; exact mem_leaves_plug_leaf
  · constructor
    · intro hm
      exfalso
      have hnd := h.nodup
      rw [t.postorder_perm.nodup_iff, List.nodup_append] at hnd
      refine hnd.2.2 p hm p ?_ rfl
      have : p ∈ (Ctx.plug K (PTree.node p l r)).internals := by
        clear hN ht hm hnd h hp
        generalize hs : PTree.node p l r = s
        have hs' : p ∈ s.internals := by subst hs; simp [internals]
        clear hs
        induction K generalizing s with
        | top => simpa [Ctx.plug]
        | frame o q s' K ih =>
          apply ih
          cases o <;> simp [fork, internals, hs']
      rw [ht]; exact this
    · rw [hN]; simp

theorem WellFormed.linked {T : Tree} {t : PTree} (h : WellFormed T t) : Linked T := by
  obtain ⟨hs, hl, hpos⟩ := h.size_eq
  have hlt : ∀ {K : Ctx} {s : PTree}, t = K.plug s → s.root < T.size := by
    intro K s ht
    rw [← h.mem, ht, (K.postorder_plug s).mem_iff]; simp [s.root_mem]
  have hchild : ∀ p < T.size, ∀ c, (T.nodes p).c0 = some c ∨ (T.nodes p).c1 = some c →
      c < T.size ∧ (T.nodes c).parent = some p := by
    intro p hp c hc
    rcases h.split hp with ⟨K, ht, hN, -⟩ | ⟨K, l, r, ht, hN, hel, her, -⟩
    · rw [hN] at hc; simp at hc
    · rw [hN] at hc
      simp only [Option.some.injEq] at hc
      rcases hc with rfl | rfl
      · exact ⟨hlt (K := Ctx.frame true p r K) (s := l) (by rw [ht]; simp [Ctx.plug, fork]),
          encodes_root_parent hel⟩
      · exact ⟨hlt (K := Ctx.frame false p l K) (s := r) (by rw [ht]; simp [Ctx.plug, fork]),
          encodes_root_parent her⟩
  have hparent : ∀ p < T.size, ∀ q, (T.nodes p).parent = some q →
    q < T.size ∧ ((T.nodes q).c0 = some p ∨ (T.nodes q).c1 = some p) := by
    intro p hp q hq
    obtain ⟨K, s, ht, hr⟩ := exists_plug ((h.mem p).2 hp)
    have henc := h.enc
    rw [ht, Ctx.encodes_plug] at henc
    have hpar := encodes_root_parent henc.2
    rw [hr, hq] at hpar
    cases K with
    | top => simp [Ctx.par] at hpar
    | frame o q' s' K =>
      simp only [Ctx.par, Option.some.injEq] at hpar
      subst hpar
      refine ⟨hlt (K := K) (s := fork o q s s') (by simpa [Ctx.plug] using ht) |> (by simpa using ·), ?_⟩
      rw [henc.1.1, hr]; cases o <;> simp [mkNode]
  have hroot : ∀ p < T.size, ((T.nodes p).parent = none ↔ p = T.size - 1) := by
    intro p hp
    obtain ⟨K, s, ht, hr⟩ := exists_plug ((h.mem p).2 hp)
    have henc := h.enc
    rw [ht, Ctx.encodes_plug] at henc
    have hpar := encodes_root_parent henc.2
    rw [hr] at hpar
    constructor
    · intro hn
      rw [hn] at hpar
      cases K with
      | top => simp only [Ctx.plug] at ht; subst ht; rw [← h.root, hr]
      | frame => simp [Ctx.par] at hpar
    · intro hp'
      have : t.root = p := by rw [h.root, hp']
      rw [← this]; exact encodes_root_parent h.enc
  have hleaf : ∀ p < T.size, ((T.nodes p).c0 = none ↔ p < T.nLeaves) ∧
      ((T.nodes p).c1 = none ↔ p < T.nLeaves) := by
    intro p hp
    rw [h.leaf_iff hp]
    rcases h.split hp with ⟨K, ht, hN, -⟩ | ⟨K, l, r, ht, hN, -⟩ <;> rw [hN] <;> simp
  refine ⟨hpos, hs, fun p hp c hc => hchild p hp c (Or.inl hc),
    fun p hp c hc => hchild p hp c (Or.inr hc), hparent, hroot,
    fun p hp => (hleaf p hp).1, fun p hp => (hleaf p hp).2, ?_, ?_⟩
  · intro p hp c hc hc'
    rcases h.split hp with ⟨K, ht, hN, -⟩ | ⟨K, l, r, ht, hN, -⟩
    · rw [hN] at hc; simp at hc
    · rw [hN] at hc hc'
      simp only [Option.some.injEq] at hc hc'
      have hnd := h.nodup
      rw [ht, (K.postorder_plug _).nodup_iff] at hnd
      simp only [postorder, List.nodup_append] at hnd
      exact hnd.1.1.2.2 _ l.root_mem _ r.root_mem (hc.trans hc'.symm)
  · intro p hp q hq
    -- a child that is also the parent would occur twice
    have key : ∀ c, (T.nodes p).c0 = some c ∨ (T.nodes p).c1 = some c → c ≠ q := by
      rintro c hc rfl
      obtain ⟨K, s, ht, hr⟩ := exists_plug ((h.mem p).2 hp)
      have henc := h.enc
      rw [ht, Ctx.encodes_plug] at henc
      have hpar := encodes_root_parent henc.2
      rw [hr, hq] at hpar
      have hnd := h.nodup
      rw [ht, (K.postorder_plug _).nodup_iff, List.nodup_append] at hnd
      have hcK : c ∈ K.poss := by
        cases K with
        | top => simp [Ctx.par] at hpar
        | frame o q' s' K => simp [Ctx.par] at hpar; simp [Ctx.poss, hpar]
      have hcs : c ∈ s.postorder := by
        cases s with
        | leaf q =>
          obtain rfl : q = p := hr
          have hN : T.nodes q = _ := henc.2
          rw [hN] at hc; simp at hc
        | node q l r =>
          obtain rfl : q = p := hr
          have hN : T.nodes q = _ := henc.2.1
          rw [hN] at hc
          simp only [Option.some.injEq] at hc
          rcases hc with rfl | rfl <;> simp [postorder, root_mem]
      exact hnd.2.2 c hcs c hcK rfl
    exact ⟨fun hc => key q (Or.inl hc) rfl, fun hc => key q (Or.inr hc) rfl⟩

end TNCO
