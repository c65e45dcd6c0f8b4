import Verif.Lemmas.PathTree

/-! The compacted vector of nodes is a tree iff the path leaves one contracted tensor. -/

namespace TNCO
open PTree

theorem map_idxOf_self {l : List ℕ} (h : l.Nodup) : l.map (fun x => l.idxOf x) = List.range l.length := by
  apply List.ext_getElem (by simp)
  intro i h1 h2
  simp only [List.length_map] at h1
  rw [List.getElem_map, List.getElem_range]
  exact h.idxOf_getElem i h1

theorem Run.last {F c F' x y z} (h : Run F (c ++ [(x, y, z)]) F') : ∃ t ∈ F', t.root = z := by
  induction c generalizing F with
  | nil =>
    cases h with
    | cons h h' =>
      cases h' with
      | nil hp => exact ⟨_, hp.mem_iff.1 (List.mem_cons_self ..), rfl⟩
  | cons s c ih =>
    cases h with
    | cons h h' => exact ih h'

theorem flattenTriples_map (f : ℕ → ℕ) (c : List (ℕ × ℕ × ℕ)) :
    flattenTriples (c.map fun t => (f t.1, f t.2.1, f t.2.2)) = (flattenTriples c).map f := by
  induction c with
  | nil => rfl
  | cons t c ih =>
    simp only [flattenTriples, List.map_cons, List.flatMap_cons, List.map_append] at *
    rw [ih]; rfl

variable {n : ℕ} {c : List (ℕ × ℕ × ℕ)} {G : List PTree}

/-- `pos_` -/
abbrev posList (n : ℕ) (c : List (ℕ × ℕ × ℕ)) : List ℕ := tensorsPosOf n c ++ List.range' n c.length

theorem posList_nodup (n : ℕ) (c) : (posList n c).Nodup := by
  rw [List.nodup_append']
  refine ⟨tensorsPosOf_nodup _ _, List.nodup_range', ?_⟩
  intro a ha hb
  have := (mem_tensorsPosOf.1 ha).2
  simp at hb; omega

theorem PathForest.mem_pos (h : PathForest n c G) (x : ℕ) : x ∈ posList n c ↔ x ∈ flattenTriples c := by
  unfold posList
  rw [← h.pos, (sortNat_perm _).mem_iff, mem_uniqueEverseen]

theorem PathForest.size (h : PathForest n c G) (hc : c ≠ []) :
    (Tree.ofList (buildNodes (posList n c) c)).size = (posList n c).length := by
  have hpos : 0 < (posList n c).length := by
    have : 0 < c.length := List.length_pos_iff.2 hc
    simp [posList]; omega
  have key := foldr_max_eq (l := flattenTriples
    (c.map fun t => ((posList n c).idxOf t.1, (posList n c).idxOf t.2.1, (posList n c).idxOf t.2.2))) hpos (by
      intro x
      rw [flattenTriples_map (fun x => (posList n c).idxOf x), List.mem_map]
      constructor
      · rintro ⟨a, ha, rfl⟩
        exact List.idxOf_lt_length_of_mem ((h.mem_pos a).2 ha)
      · intro hx
        refine ⟨(posList n c)[x], (h.mem_pos _).1 (List.getElem_mem hx), ?_⟩
        exact (posList_nodup n c).idxOf_getElem x hx)
  simp only [Tree.ofList, buildNodes, List.length_map, List.length_range]
  exact key

theorem PathForest.labels_map (h : PathForest n c G) :
    (Run.labels (G.map (PTree.mapP fun x => (posList n c).idxOf x))).Perm
      (List.range (posList n c).length) := by
  have e : Run.labels (G.map (PTree.mapP fun x => (posList n c).idxOf x)) =
      (Run.labels G).map fun x => (posList n c).idxOf x := by
    simp only [Run.labels, List.flatMap_map, List.map_flatMap, postorder_mapP]
  rw [e, ← map_idxOf_self (posList_nodup n c)]
  exact h.labels.map _

theorem PathForest.encodes (h : PathForest n c G) (hc : c ≠ []) :
    ∀ t ∈ G, (t.mapP fun x => (posList n c).idxOf x).Encodes
      (Tree.ofList (buildNodes (posList n c) c)).nodes none := by
  intro t ht
  have hr := h.run.map fun x => (posList n c).idxOf x
  have hn : (Run.labels (G.map (PTree.mapP fun x => (posList n c).idxOf x))).Nodup :=
    h.labels_map.nodup_iff.2 List.nodup_range
  obtain ⟨h1, -⟩ := hr.nodes hn (fun _ => ⟨none, none, none⟩) (by
    intro t ht
    simp only [List.map_map, List.mem_map, Function.comp] at ht
    obtain ⟨p, -, rfl⟩ := ht
    rfl) (fun _ _ => rfl)
  refine encodes_congr (fun p hp => ?_) (h1 _ (List.mem_map_of_mem ht))
  have hp' : p < (posList n c).length := by
    have : p ∈ Run.labels (G.map (PTree.mapP fun x => (posList n c).idxOf x)) :=
      List.mem_flatMap.2 ⟨_, List.mem_map_of_mem ht, hp⟩
    simpa using h.labels_map.mem_iff.1 this
  have hs := h.size hc
  simp only [Tree.ofList, buildNodes, List.length_map, List.length_range] at hs ⊢
  rw [List.getD_eq_getElem?_getD, List.getElem?_map, List.getElem?_range (by omega)]
  rfl

theorem PathForest.ne_nil (h : PathForest n c G) (hc : c ≠ []) : G ≠ [] := by
  intro e
  have := h.labels.length_eq
  have : 0 < c.length := List.length_pos_iff.2 hc
  simp [e, Run.labels] at *
  omega

theorem PathForest.unique (h : PathForest n c G) (hc : c ≠ [])
    (hv : (Tree.ofList (buildNodes (posList n c) c)).isValid = true) : ∃ t, G = [t] := by
  have hs := h.size hc
  have hpos : 0 < (posList n c).length := by
    have : 0 < c.length := List.length_pos_iff.2 hc
    simp [posList]; omega
  obtain ⟨-, hroot, -⟩ := Tree.isValid_counts hv (by omega)
  have hr : ∀ t ∈ G, (t.mapP fun x => (posList n c).idxOf x).root = (posList n c).length - 1 := by
    intro t ht
    have hp := encodes_root_parent (h.encodes hc t ht)
    rw [← hs]
    refine (hroot _ ?_).1 hp
    rw [hs]
    have : (t.mapP fun x => (posList n c).idxOf x).root ∈
        Run.labels (G.map (PTree.mapP fun x => (posList n c).idxOf x)) :=
      List.mem_flatMap.2 ⟨_, List.mem_map_of_mem ht, root_mem _⟩
    simpa using h.labels_map.mem_iff.1 this
  match G, h.ne_nil hc with
  | [t], _ => exact ⟨t, rfl⟩
  | t :: u :: rest, _ =>
    exfalso
    have hn : (Run.labels ((t :: u :: rest).map (PTree.mapP fun x => (posList n c).idxOf x))).Nodup :=
      h.labels_map.nodup_iff.2 List.nodup_range
    have h1 := hr t (by simp)
    have h2 := hr u (by simp)
    simp only [List.map_cons, Run.labels, List.flatMap_cons] at hn
    have hd := List.disjoint_of_nodup_append hn
    refine hd (root_mem (t.mapP fun x => (posList n c).idxOf x)) ?_
    rw [h1, ← h2]
    exact List.mem_append_left _ (root_mem _)

theorem PathForest.wellFormed {t : PTree} (h : PathForest n c [t]) (hc : c ≠ []) :
    WellFormed (Tree.ofList (buildNodes (posList n c) c)) (t.mapP fun x => (posList n c).idxOf x) ∧
      ((Tree.ofList (buildNodes (posList n c) c)).size + 1) / 2 = (tensorsPosOf n c).length ∧
      c.length + 1 = (tensorsPosOf n c).length := by
  have hs := h.size hc
  have hlab : (t.mapP fun x => (posList n c).idxOf x).postorder.Perm (List.range (posList n c).length) := by
    simpa [Run.labels] using h.labels_map
  have hlv : t.leaves.Perm (tensorsPosOf n c) := by
    have := h.run.leaves_perm
    simpa [List.flatMap_map, leaves] using this
  have hlen : c.length + 1 = (tensorsPosOf n c).length := by
    have h1 := hlv.length_eq
    have h2 := t.length_internals
    have h3 := h.labels.length_eq
    have h4 := t.length_postorder
    simp [Run.labels] at h3
    omega
  have hsz : (Tree.ofList (buildNodes (posList n c) c)).size = 2 * (tensorsPosOf n c).length - 1 := by
    rw [hs]; simp [posList]; omega
  have hlv' : ∀ p, p ∈ (t.mapP fun x => (posList n c).idxOf x).leaves ↔ p < (tensorsPosOf n c).length := by
    intro p
    rw [leaves_mapP, (hlv.map _).mem_iff]
    have e : (tensorsPosOf n c).map (fun x => (posList n c).idxOf x) =
        List.range (tensorsPosOf n c).length := by
      rw [← map_idxOf_self (tensorsPosOf_nodup n c)]
      refine List.map_congr_left fun x hx => ?_
      exact List.idxOf_append_of_mem hx
    rw [e]; simp
  have hroot : t.root = n + c.length - 1 := by
    have hl : 0 < c.length := List.length_pos_iff.2 hc
    obtain ⟨d, ⟨x, y, z⟩, rfl⟩ := (List.eq_nil_or_concat c).resolve_left hc
    rw [List.concat_eq_append] at *
    obtain ⟨u, hu, hr⟩ := h.run.last
    simp only [List.mem_singleton] at hu
    rw [← hu, hr]
    have h3 := congrArg (fun l => l[d.length]?) h.third
    simp at h3
    simp; omega
  refine ⟨⟨h.encodes hc t (by simp), hlab.nodup_iff.2 List.nodup_range, fun p => ?_, ?_, fun p => ?_⟩, ?_, hlen⟩
  · rw [hlab.mem_iff, hs]; simp
  · rw [root_mapP, hroot, hs]
    have hl : 0 < c.length := List.length_pos_iff.2 hc
    have : (posList n c)[(posList n c).length - 1]'(by simp [posList]; omega) = n + c.length - 1 := by
      have e : (posList n c).length - 1 = (tensorsPosOf n c).length + (c.length - 1) := by
        simp [posList]; omega
      simp only [e, posList]
      rw [List.getElem_append_right (by omega)]
      simp; omega
    rw [← this]
    exact (posList_nodup n c).idxOf_getElem _ _
  · rw [hlv']
    have : 0 < (tensorsPosOf n c).length := by omega
    rw [hsz]; omega
  · omega

end TNCO
