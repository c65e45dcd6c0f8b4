import Verif.Lemmas.Contraction
import Verif.Model.PathBuild
import Verif.Spec.Replay
import Verif.Lemmas.Unique

/-! Forests of labelled trees built by a list of pairwise contractions. -/

namespace TNCO
open PTree

/-- `F'` is obtained from the forest `F` by the contractions `c`, up to order. -/
inductive Run : List PTree → List (ℕ × ℕ × ℕ) → List PTree → Prop where
  | nil {F F'} : F.Perm F' → Run F [] F'
  | cons {F a b rest z c F'} : F.Perm (a :: b :: rest) → Run (.node z a b :: rest) c F' →
      Run F ((a.root, b.root, z) :: c) F'

namespace Run

theorem perm_left {F G c F'} (h : Run F c F') (hp : G.Perm F) : Run G c F' := by
  cases h with
  | nil h => exact .nil (hp.trans h)
  | cons h h' => exact .cons (hp.trans h) h'

theorem perm_right {F c F' G} (h : Run F c F') (hp : F'.Perm G) : Run F c G := by
  induction h with
  | nil h => exact .nil (h.trans hp)
  | cons h _ ih => exact .cons h (ih hp)

theorem append {F c G d H} (h : Run F c G) (h' : Run G d H) : Run F (c ++ d) H := by
  induction h with
  | nil h => exact h'.perm_left h
  | cons h _ ih => exact .cons h (ih h')

/-- Trees that are not touched can be added. -/
theorem frame {F c G} (h : Run F c G) (R : List PTree) : Run (F ++ R) c (G ++ R) := by
  induction h with
  | nil h => exact .nil (h.append_right R)
  | cons h _ ih => exact .cons (h.append_right R) ih

theorem contr (t : PTree) : Run (t.leaves.map .leaf) t.contr [t] := by
  induction t with
  | leaf p => exact .nil (by simp [leaves])
  | node p l r ihl ihr =>
    simp only [leaves, List.map_append, PTree.contr]
    have h1 := ihl.frame (r.leaves.map .leaf)
    have h2 := (ihr.frame [l]).perm_left (G := [l] ++ r.leaves.map .leaf) List.perm_append_comm
    refine (h1.append h2).append ?_
    exact .cons (List.Perm.swap _ _ _) (.nil (List.Perm.refl _))

/-- All labels of the forest. -/
def labels (F : List PTree) : List ℕ := F.flatMap postorder

theorem labels_perm {F G : List PTree} (h : F.Perm G) : (labels F).Perm (labels G) :=
  h.flatMap_right _

theorem labels_mono {F c F'} (h : Run F c F') : ∀ x ∈ labels F, x ∈ labels F' := by
  induction h with
  | nil h => intro x hx; exact (labels_perm h).mem_iff.1 hx
  | cons h _ ih =>
    intro x hx
    apply ih
    have := (labels_perm h).mem_iff.1 hx
    simp only [labels, List.flatMap_cons, List.mem_append, postorder] at *
    tauto

theorem labels_count {F c F'} (h : Run F c F') (x : ℕ) :
    (labels F').count x = (labels F).count x + (c.map fun t => t.2.2).count x := by
  induction h with
  | nil h => simpa using (labels_perm h).symm.count_eq x
  | @cons F a b rest z c F' h _ ih =>
    rw [ih, (labels_perm h).count_eq]
    simp only [labels, List.flatMap_cons, List.count_append, postorder, List.map_cons,
      List.count_cons, List.count_nil]
    omega

theorem nodup_left {F c F'} (h : Run F c F') (hn : (labels F').Nodup) : (labels F).Nodup := by
  rw [List.nodup_iff_count_le_one] at *
  intro x
  have := hn x
  rw [h.labels_count] at this
  omega

theorem leaves_perm {F c F'} (h : Run F c F') :
    (F'.flatMap leaves).Perm (F.flatMap leaves) := by
  induction h with
  | nil h => exact (h.flatMap_right _).symm
  | @cons F a b rest z c F' h _ ih =>
    refine ih.trans (List.Perm.trans ?_ (h.flatMap_right _).symm)
    simp [leaves]

theorem internals_perm {F c F'} (h : Run F c F') :
    (F'.flatMap internals).Perm (F.flatMap internals ++ c.map fun t => t.2.2) := by
  rw [List.perm_iff_count]; intro x
  have h1 := h.labels_count x
  have h2 := h.leaves_perm.count_eq x
  have key : ∀ G : List PTree, (labels G).count x =
      (G.flatMap leaves).count x + (G.flatMap internals).count x := by
    intro G
    induction G with
    | nil => rfl
    | cons t G ih =>
      have := t.postorder_perm.count_eq x
      simp only [labels, List.flatMap_cons, List.count_append] at *
      omega
  rw [key, key] at h1
  rw [List.count_append]; omega

/-- Only trees with a label in `S` at the root take part. -/
theorem filter {F c F'} (h : Run F c F') (q : ℕ → Bool)
    (hq : ∀ x ∈ flattenTriples c, q x = true) :
    Run (F.filter fun t => q t.root) c (F'.filter fun t => q t.root) := by
  induction h with
  | nil h => exact .nil (h.filter _)
  | @cons F a b rest z c F' h _ ih =>
    have ha : q a.root = true := hq _ (by simp [flattenTriples])
    have hb : q b.root = true := hq _ (by simp [flattenTriples])
    have hz : q z = true := hq _ (by simp [flattenTriples])
    have h' := h.filter fun t => q t.root
    simp only [List.filter_cons, ha, hb, if_true] at h'
    refine .cons h' ?_
    have := ih fun x hx => hq x (by
      simp only [flattenTriples, List.flatMap_cons, List.mem_append] at *; tauto)
    simpa only [List.filter_cons, root, hz, if_true] using this

/-- A touched label belongs to a tree that is not a leaf. -/
theorem touched {F c F'} (h : Run F c F') (x : ℕ) :
    (∃ t ∈ F', (∃ p l r, t = .node p l r) ∧ x ∈ t.postorder) ↔
      (∃ t ∈ F, (∃ p l r, t = .node p l r) ∧ x ∈ t.postorder) ∨ x ∈ flattenTriples c := by
  induction h with
  | nil h => simp [flattenTriples, h.mem_iff]
  | @cons F a b rest z c F' h _ ih =>
    rw [ih]
    have key : ∀ t : PTree, x ∈ t.postorder ↔
        ((∃ p l r, t = .node p l r) ∧ x ∈ t.postorder) ∨ x = t.root := by
      intro t
      cases t with
      | leaf p => simp [postorder, root]
      | node p l r =>
        simp only [postorder, root, List.mem_append, List.mem_singleton]
        constructor
        · intro h'; exact Or.inl ⟨⟨_, _, _, rfl⟩, h'⟩
        · rintro (h' | h')
          · exact h'.2
          · exact Or.inr h'
    have e : (∃ t ∈ F, (∃ p l r, t = .node p l r) ∧ x ∈ t.postorder) ↔
        (∃ t ∈ a :: b :: rest, (∃ p l r, t = .node p l r) ∧ x ∈ t.postorder) :=
      exists_congr fun t => by rw [h.mem_iff]
    rw [e]
    have e1 : x ∈ flattenTriples ((a.root, b.root, z) :: c) ↔
        (x = a.root ∨ x = b.root ∨ x = z) ∨ x ∈ flattenTriples c := by
      simp [flattenTriples, or_assoc]
    rw [e1]
    have ka := key a
    have kb := key b
    constructor
    · rintro (⟨t, ht, hn, hx⟩ | hx)
      · rcases List.mem_cons.1 ht with rfl | ht
        · simp only [postorder, List.mem_append, List.mem_singleton] at hx
          rcases hx with (hx | hx) | hx
          · rcases ka.1 hx with h' | h'
            · exact Or.inl ⟨a, by simp, h'⟩
            · exact Or.inr (Or.inl (Or.inl h'))
          · rcases kb.1 hx with h' | h'
            · exact Or.inl ⟨b, by simp, h'⟩
            · exact Or.inr (Or.inl (Or.inr (Or.inl h')))
          · exact Or.inr (Or.inl (Or.inr (Or.inr hx)))
        · exact Or.inl ⟨t, by simp [ht], hn, hx⟩
      · exact Or.inr (Or.inr hx)
    · have new : x ∈ (PTree.node z a b).postorder →
          ∃ t ∈ PTree.node z a b :: rest, (∃ p l r, t = .node p l r) ∧ x ∈ t.postorder :=
        fun hx => ⟨_, by simp, ⟨_, _, _, rfl⟩, hx⟩
      simp only [postorder, List.mem_append, List.mem_singleton] at new
      rintro (⟨t, ht, hn, hx⟩ | (rfl | rfl | rfl) | hx)
      · rcases List.mem_cons.1 ht with rfl | ht
        · exact Or.inl (new (Or.inl (Or.inl hx)))
        · rcases List.mem_cons.1 ht with rfl | ht
          · exact Or.inl (new (Or.inl (Or.inr hx)))
          · exact Or.inl ⟨t, by simp [ht], hn, hx⟩
      · exact Or.inl (new (Or.inl (Or.inl a.root_mem)))
      · exact Or.inl (new (Or.inl (Or.inr b.root_mem)))
      · exact Or.inl (new (Or.inr rfl))
      · exact Or.inr hx

end Run

/-- Relabelling. -/
def PTree.mapP (f : ℕ → ℕ) : PTree → PTree
  | leaf p => leaf (f p)
  | node p l r => node (f p) (l.mapP f) (r.mapP f)

namespace PTree

@[simp] theorem root_mapP (f : ℕ → ℕ) (t : PTree) : (t.mapP f).root = f t.root := by
  cases t <;> rfl

theorem postorder_mapP (f : ℕ → ℕ) (t : PTree) : (t.mapP f).postorder = t.postorder.map f := by
  induction t with
  | leaf p => rfl
  | node p l r ihl ihr => simp [mapP, postorder, ihl, ihr]

theorem leaves_mapP (f : ℕ → ℕ) (t : PTree) : (t.mapP f).leaves = t.leaves.map f := by
  induction t with
  | leaf p => rfl
  | node p l r ihl ihr => simp [mapP, leaves, ihl, ihr]

theorem internals_mapP (f : ℕ → ℕ) (t : PTree) : (t.mapP f).internals = t.internals.map f := by
  induction t with
  | leaf p => rfl
  | node p l r ihl ihr => simp [mapP, internals, ihl, ihr]

theorem mapP_mapP (f g : ℕ → ℕ) (t : PTree) : (t.mapP g).mapP f = t.mapP (f ∘ g) := by
  induction t with
  | leaf p => rfl
  | node p l r ihl ihr => simp [mapP, ihl, ihr]

theorem mapP_congr {f g : ℕ → ℕ} {t : PTree} (h : ∀ p ∈ t.postorder, f p = g p) :
    t.mapP f = t.mapP g := by
  induction t with
  | leaf p => simp [mapP, h p (by simp [postorder])]
  | node p l r ihl ihr =>
    simp only [postorder, List.mem_append, List.mem_singleton] at h
    simp [mapP, h p (by simp), ihl fun q hq => h q (by tauto), ihr fun q hq => h q (by tauto)]

theorem mapP_id (t : PTree) : t.mapP (fun p => p) = t := by
  induction t with
  | leaf p => rfl
  | node p l r ihl ihr => simp [mapP, ihl, ihr]

end PTree

theorem Run.map {F c F'} (h : Run F c F') (f : ℕ → ℕ) :
    Run (F.map (PTree.mapP f)) (c.map fun t => (f t.1, f t.2.1, f t.2.2)) (F'.map (PTree.mapP f)) := by
  induction h with
  | nil h => exact .nil (h.map _)
  | @cons F a b rest z c F' h _ ih =>
    have h' := h.map (PTree.mapP f)
    have := Run.cons (z := f z) h' ih
    simpa using this

/-- The vector of nodes written by the constructor encodes the forest. -/
theorem Run.nodes {F c F'} (h : Run F c F') (hn : (Run.labels F').Nodup) (N : ℕ → Node)
    (he : ∀ t ∈ F, t.Encodes N none) (hu : ∀ p, p ∉ Run.labels F → N p = ⟨none, none, none⟩) :
    (∀ t ∈ F', t.Encodes (writeNodes c N) none) ∧
      ∀ p, p ∉ Run.labels F' → writeNodes c N p = ⟨none, none, none⟩ := by
  induction h generalizing N with
  | nil h =>
    exact ⟨fun t ht => he t (h.mem_iff.2 ht), fun p hp => hu p fun h' => hp ((Run.labels_perm h).mem_iff.1 h')⟩
  | @cons F a b rest z c F' h hr ih =>
    have hn1 := hr.nodup_left hn
    have hcnt : ∀ x, a.postorder.count x + b.postorder.count x + (if z = x then 1 else 0) +
        (Run.labels rest).count x ≤ 1 := by
      intro x
      have := List.nodup_iff_count_le_one.1 hn1 x
      simp only [Run.labels, List.flatMap_cons, postorder, List.count_append,
        List.count_singleton, beq_iff_eq] at *
      exact this
    have pos : ∀ {l : List ℕ} {x}, x ∈ l → 1 ≤ l.count x := fun hx => List.count_pos_iff.2 hx
    have za : z ∉ a.postorder := fun hx => by have h1 := hcnt z; have h2 := pos hx; rw [if_pos rfl] at h1; omega
    have zb : z ∉ b.postorder := fun hx => by have h1 := hcnt z; have h2 := pos hx; rw [if_pos rfl] at h1; omega
    have zr : z ∉ Run.labels rest := fun hx => by have h1 := hcnt z; have h2 := pos hx; rw [if_pos rfl] at h1; omega
    have ab : ∀ x ∈ a.postorder, x ∉ b.postorder := fun x hx hy => by
      have := hcnt x; have := pos hx; have := pos hy; omega
    have ar : ∀ x ∈ a.postorder, x ∉ Run.labels rest := fun x hx hy => by
      have := hcnt x; have := pos hx; have := pos hy; omega
    have br : ∀ x ∈ b.postorder, x ∉ Run.labels rest := fun x hx hy => by
      have := hcnt x; have := pos hx; have := pos hy; omega
    have na : a.postorder.Nodup := List.nodup_iff_count_le_one.2 fun x => by have := hcnt x; omega
    have nb : b.postorder.Nodup := List.nodup_iff_count_le_one.2 fun x => by have := hcnt x; omega
    have hab : a.root ≠ b.root := fun e => ab _ a.root_mem (e ▸ b.root_mem)
    have hza : z ≠ a.root := fun e => za (e ▸ a.root_mem)
    have hzb : z ≠ b.root := fun e => zb (e ▸ b.root_mem)
    have hNz : N z = ⟨none, none, none⟩ := hu z fun hx => by
      have := (Run.labels_perm h).mem_iff.1 hx
      simp only [Run.labels, List.flatMap_cons, List.mem_append] at this zr
      tauto
    simp only [writeNodes]
    set N1 := Function.update N a.root { N a.root with parent := some z } with hN1
    set N2 := Function.update N1 b.root { N1 b.root with parent := some z } with hN2
    set N3 := Function.update N2 z { N2 z with c0 := some a.root, c1 := some b.root } with hN3
    have e3 : ∀ x, x ≠ a.root → x ≠ b.root → x ≠ z → N3 x = N x := by
      intro x h1 h2 h3
      simp [hN3, hN2, hN1, Function.update_of_ne, h1, h2, h3]
    have e3a : N3 a.root = { N a.root with parent := some z } := by
      simp [hN3, hN2, hN1, Function.update_of_ne, hza.symm, hab]
    have e3b : N3 b.root = { N b.root with parent := some z } := by
      simp [hN3, hN2, hN1, Function.update_of_ne, hzb.symm, hab.symm]
    have e3z : N3 z = ⟨some a.root, some b.root, none⟩ := by
      simp [hN3, hN2, hN1, Function.update_of_ne, hza, hzb, hNz]
    refine ih hn N3 ?_ ?_
    · intro t ht
      rcases List.mem_cons.1 ht with rfl | ht
      · refine ⟨e3z, ?_, ?_⟩
        · refine encodes_reparent na e3a (fun p hp hpr => ?_) (he a (h.mem_iff.2 (by simp)))
          exact e3 p hpr (fun e => ab p hp (e ▸ b.root_mem)) (fun e => za (e ▸ hp))
        · refine encodes_reparent nb e3b (fun p hp hpr => ?_) (he b (h.mem_iff.2 (by simp)))
          exact e3 p (fun e => ab _ a.root_mem (e ▸ hp)) hpr (fun e => zb (e ▸ hp))
      · refine encodes_congr (fun p hp => ?_) (he t (h.mem_iff.2 (by simp [ht])))
        have hpl : p ∈ Run.labels rest := List.mem_flatMap.2 ⟨t, ht, hp⟩
        exact e3 p (fun e => ar _ a.root_mem (e ▸ hpl)) (fun e => br _ b.root_mem (e ▸ hpl))
          (fun e => zr (e ▸ hpl))
    · intro p hp
      have hp' : (p ∉ a.postorder ∧ p ∉ b.postorder ∧ p ≠ z) ∧ p ∉ Run.labels rest := by
        simp only [Run.labels, List.flatMap_cons, postorder, List.mem_append, List.mem_singleton] at hp ⊢
        tauto
      rw [e3 p (fun e => hp'.1.1 (e ▸ a.root_mem)) (fun e => hp'.1.2.1 (e ▸ b.root_mem)) hp'.1.2.2]
      refine hu p fun hx => ?_
      have := (Run.labels_perm h).mem_iff.1 hx
      simp only [Run.labels, List.flatMap_cons, List.mem_append] at this hp'
      tauto

end TNCO
