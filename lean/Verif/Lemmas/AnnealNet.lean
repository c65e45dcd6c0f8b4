import Verif.Lemmas.PathCost
import Verif.Spec.AnnealResult
import Verif.Lemmas.Anneal
import Verif.Props.RandomPath
import Verif.Props.InfMem

/-! The parts of a network, their trees and their paths. -/

namespace TNCO
open PTree
variable {ι : Type} [DecidableEq ι]

/-- Paths for the connected parts of a network: what C27 says about random paths. -/
structure PartPaths (tsInds : List (List ι)) (paths : List (List (ℕ × ℕ))) : Prop where
  valid : ∀ p ∈ paths, ValidPath tsInds.length p
  disc : Disconnected tsInds.length paths
  share : ∀ p ∈ paths, ∀ t ∈ trace (initTerms tsInds.length) p, ∃ a b, t = .pair a b ∧ Share tsInds a b
  together : ∀ i j x, i ≠ j → Holds tsInds i x → Holds tsInds j x →
    ∃ p ∈ paths, ∃ t ∈ trace (initTerms tsInds.length) p, i ∈ t.tensors ∧ j ∈ t.tensors
  single : ∀ p ∈ paths, p ≠ [] → ∃ F u, replay (initTerms tsInds.length) p = some F ∧ F.filter Term.isPair = [u]

theorem randomPaths_parts {σ : Type} {g : PyRng σ} (hg : g.Ok) {enum : Finset ℕ → List ℕ} (he : EnumOk enum) (s : σ)
    (tsInds : List (List ι)) {fuel : ℕ} (hf : tsInds.length + (uniqueEverseen tsInds.flatten).length < fuel) :
    ∃ paths, randomPaths g enum fuel s tsInds = some (.ok paths) ∧ PartPaths tsInds paths := by
  obtain ⟨paths, h1, h2, h3, h4, h5, -⟩ := C27_paths g hg enum he s tsInds
  exact ⟨paths, h1 fuel hf, h2, h3, h4, h5, fun p hp hne => C27_single g hg enum he s tsInds fuel paths (h1 fuel hf) hf p hp hne⟩

theorem replay_ne {path : List (ℕ × ℕ)} {ts F : List Term} (h : replay ts path = some F) : ∀ s ∈ path, s.1 ≠ s.2 := by
  induction path generalizing ts with
  | nil => simp
  | cons s path ih =>
    obtain ⟨x, y⟩ := s
    simp only [replay] at h
    split at h
    · cases h
    next hxy =>
    split at h
    · rintro t ht
      rcases List.mem_cons.1 ht with rfl | ht
      · exact hxy
      · exact ih h t ht
    · cases h

theorem disconnected_eq {n : ℕ} {paths : List (List (ℕ × ℕ))} (hd : Disconnected n paths) {p q : List (ℕ × ℕ)} (hp : p ∈ paths)
    (hq : q ∈ paths) {k : ℕ} (h1 : Touches n p k) (h2 : Touches n q k) : p = q := by
  obtain ⟨a, ha, rfl⟩ := List.getElem_of_mem hp
  obtain ⟨b, hb, rfl⟩ := List.getElem_of_mem hq
  have hpw := List.pairwise_iff_getElem.1 hd
  rcases lt_trichotomy a b with h | rfl | h
  · exact (hpw a b ha hb h k ⟨h1, h2⟩).elim
  · rfl
  · exact (hpw b a hb ha h k ⟨h2, h1⟩).elim

theorem PTree.Encodes.tree_eq {M : ℕ → Node} {par par' : Option ℕ} {a b : PTree} (ha : a.Encodes M par) (hb : b.Encodes M par')
    (h : a.root = b.root) : a = b := by
  induction a generalizing b par par' with
  | leaf p =>
    cases b with
    | leaf q => simp only [root] at h; rw [h]
    | node q l r =>
      simp only [root] at h
      simp only [Encodes] at ha hb
      rw [h, hb.1] at ha
      simp at ha
  | node p l r ihl ihr =>
    cases b with
    | leaf q =>
      simp only [root] at h
      simp only [Encodes] at ha hb
      rw [← h, ha.1] at hb
      simp at hb
    | node q l' r' =>
      simp only [root] at h
      simp only [Encodes] at ha hb
      have e := ha.1
      rw [h, hb.1] at e
      simp only [Node.mk.injEq, Option.some.injEq] at e
      rw [h, ihl ha.2.1 hb.2.1 e.1.symm, ihr ha.2.2 hb.2.2 e.2.1.symm]

theorem WellFormed.tree_eq {A : Tree} {a b : PTree} (ha : WellFormed A a) (hb : WellFormed A b) : a = b :=
  ha.enc.tree_eq hb.enc (ha.root.trans hb.root.symm)

variable {N : NetworkRec ι} {enum : Finset ι → List ι}

/-- The tree of the path of a part. -/
theorem part_tree (hN : N.Plain) (he : EnumOk enum) {paths : List (List (ℕ × ℕ))} (hP : PartPaths N.tsInds paths) {p : List (ℕ × ℕ)}
    (hp : p ∈ paths) (hne : p ≠ []) :
    ∃ pt T F u, N.tree enum p = .ok pt ∧ Component N.tsInds N.output pt ∧ Over pt pt.core T ∧ pt.core.Tidy pt.indsOrder ∧
      pt.core.isValid true = true ∧
      (∀ (j : ℕ) x, pt.indsOrder[j]? = some x → N.dim x = pt.core.dims.get j) ∧
      replay (initTerms N.tsInds.length) p = some F ∧ F.filter Term.isPair = [u] ∧
      (T.toTerm fun q => pt.tensorsPos.getD q 0) = u ∧ (∀ k, Touches N.tsInds.length p k ↔ k ∈ pt.tensorsPos) ∧
      (∀ x, x ∈ pt.indsOrder ↔ ∃ k, Touches N.tsInds.length p k ∧ x ∈ N.tsInds.getD k []) := by
  obtain ⟨F, u, hF, hu⟩ := hP.single p hp hne
  have hlen : ∀ k x, x ∈ N.tsInds.getD k [] → k < N.tsInds.length := by
    intro k x hx
    by_contra hk
    rw [List.getD_eq_default _ _ (by omega)] at hx
    cases hx
  have hmem : ∀ k x, x ∈ N.tsInds.getD k [] → ∃ l ∈ N.tsInds, x ∈ l := by
    intro k x hx
    have hk := hlen k x hx
    rw [List.getD_eq_getElem _ _ hk] at hx
    exact ⟨_, List.getElem_mem hk, hx⟩
  obtain ⟨pt, hpt⟩ : ∃ pt, N.tree enum p = .ok pt := by
    refine C09_accepts enum he p N.tsInds hN.nodup _ _ (replay_ne hF) F u hF hu (by simp) ?_ true ?_
    · intro k _ x hx
      obtain ⟨l, hl, hxl⟩ := hmem k x hx
      exact hN.dims l hl x hxl
    · intro _ a b hab
      obtain ⟨a', b', e, x, h1, h2⟩ := hP.share p hp _ hab
      cases e
      exact ⟨x, h1, h2⟩
  have hpt' := hpt
  unfold NetworkRec.tree at hpt'
  obtain ⟨T, F', u', hwf, hF', hu', hterm, hnt, hsort, htp, hlen', hleaf⟩ :=
    C09_represents enum he p N.tsInds hN.nodup _ _ true (replay_ne hF) pt hpt'
  rw [hF] at hF'; cases hF'
  rw [hu] at hu'; cases hu'
  obtain ⟨⟨T', hwf', hex⟩, hni, hnd, hord, hdims⟩ := C10_core_exact enum he p N.tsInds hN.nodup _ _ true pt hpt'
  have hTT : T' = T := hwf'.tree_eq hwf
  subst hTT
  have hv : pt.core.isValid true = true := by
    obtain ⟨_, _, _, _, _, _, _, h, _⟩ := ofPath_sound he hN.nodup hpt'
    exact h
  have htouch : ∀ k, Touches N.tsInds.length p k ↔ k ∈ pt.tensorsPos := by
    intro k
    rw [touches_iff hF, htp]
    constructor
    · rintro ⟨v, hv, hvp, hk⟩
      have : v ∈ F.filter Term.isPair := List.mem_filter.2 ⟨hv, hvp⟩
      rw [hu, List.mem_singleton] at this
      subst this; exact hk
    · intro hk
      have : u ∈ F.filter Term.isPair := by rw [hu]; simp
      exact ⟨u, (List.mem_filter.1 this).1, (List.mem_filter.1 this).2, hk⟩
  refine ⟨pt, T', F, u, hpt, ?_, ⟨hwf, rfl, fun _ _ => rfl, hex⟩, ofPath_tidy hpt', hv, ?_, hF, hu, hterm, htouch, fun x => ?_⟩
  · refine ⟨hnt, hlen', hsort.imp (fun h => Nat.ne_of_lt h), ?_, hni, hnd, hleaf, fun x => ?_, ?_⟩
    · intro q hq
      have h1 := (htp q).1 hq
      have h2 : u ∈ F := (List.mem_filter.1 (by rw [hu]; simp : u ∈ F.filter Term.isPair)).1
      have h3 := (replay_tensors_init hF).mem_iff.1 (List.mem_flatMap.2 ⟨u, h2, h1⟩)
      simpa using h3
    · rw [C11_given enum he p N.tsInds hN.nodup _ _ true pt hpt' x, (he _).2]
    · intro a ha b x hxa hxb
      by_cases hab : a = b
      · exact hab ▸ ha
      · obtain ⟨q, hq, t, ht, h1, h2⟩ := hP.together a b x hab hxa hxb
        have : q = p := disconnected_eq hP.disc hq hp ⟨t, ht, h1⟩ ((htouch a).2 ha)
        subst this
        exact (htouch b).1 ⟨t, ht, h2⟩
  · intro j x hj
    have := hdims j x hj
    simp only [PyDims.get?] at this
    simp [NetworkRec.dim, this]
  · rw [hord]
    simp only [htouch]

/-- The path of a tree over a part. -/
theorem part_path {tsInds : List (List ι)} {out : Finset ι} {pt : PyTree ι} (hc : Component tsInds out pt) {c : CTree} {T : PTree}
    (ho : Over pt c T) (hs : c.tree.size ≠ 1) :
    ∃ path F u, (⟨c, pt.nTensors, pt.tensorsPos, pt.indsOrder⟩ : PyTree ι).path = some path ∧
      replay (initTerms tsInds.length) path = some F ∧ F.filter Term.isPair = [u] ∧
      u.Same (T.toTerm fun p => pt.tensorsPos.getD p 0) ∧ (∀ k, Touches tsInds.length path k ↔ k ∈ pt.tensorsPos) := by
  obtain ⟨path, F, u, h1, h2, h3, h4⟩ := C12_path (⟨c, pt.nTensors, pt.tensorsPos, pt.indsOrder⟩ : PyTree ι) T ho.wf
    (by simp only; rw [hc.len, ho.size]) hc.nodup (fun p hp => by simp only; rw [hc.nTensors]; exact hc.lt p hp)
  simp only at h2 h3 h4
  rw [hc.nTensors] at h2 h3
  have hpair : u.isPair = true := by
    cases T with
    | leaf q =>
      exfalso
      apply hs
      have h5 := ho.wf.mem 0
      have h6 := ho.wf.mem (c.tree.size - 1)
      have h7 := ho.wf.linked.pos
      simp only [postorder, List.mem_singleton] at h5 h6
      have := h5.2 h7
      have := h6.2 (by omega)
      omega
    | node q l r =>
      simp only [toTerm] at h4
      cases h4 <;> rfl
  have hfil : F.filter Term.isPair = [u] := by
    have h5 := h3.filter Term.isPair
    rw [List.filter_cons_of_pos hpair] at h5
    have : (((List.range tsInds.length).filter (· ∉ pt.tensorsPos)).map Term.tensor).filter Term.isPair = [] := by
      rw [List.filter_eq_nil_iff]
      intro t ht
      obtain ⟨i, -, rfl⟩ := List.mem_map.1 ht
      simp [Term.isPair]
    rw [this] at h5
    exact List.perm_singleton.1 h5
  refine ⟨path, F, u, h1, h2, hfil, h4, fun k => ?_⟩
  have hlv : ∀ k, k ∈ u.tensors ↔ k ∈ pt.tensorsPos := by
    intro k
    rw [h4.tensors.mem_iff, toTerm_tensors, List.mem_map]
    constructor
    · rintro ⟨q, hq, rfl⟩
      have hq' : q < pt.tensorsPos.length := by rw [hc.len, ← ho.size]; exact (ho.wf.leaves q).1 hq
      rw [List.getD_eq_getElem _ _ hq']; exact List.getElem_mem _
    · intro hk
      obtain ⟨q, hq, rfl⟩ := List.getElem_of_mem hk
      exact ⟨q, (ho.wf.leaves q).2 (by rw [ho.size, ← hc.len]; exact hq), by rw [List.getD_eq_getElem _ _ hq]⟩
  rw [touches_iff h2, ← hlv]
  constructor
  · rintro ⟨v, hv, hvp, hk⟩
    have : v ∈ F.filter Term.isPair := List.mem_filter.2 ⟨hv, hvp⟩
    rw [hfil, List.mem_singleton] at this
    subst this; exact hk
  · intro hk
    have : u ∈ F.filter Term.isPair := by rw [hfil]; simp
    exact ⟨u, (List.mem_filter.1 this).1, hpair, hk⟩

end TNCO
