import Verif.Spec.Program
import Verif.Props.LoadText
import Verif.Props.LoadNet
import Verif.Props.EndToEnd

/-!
# Lemmas: the network of a text
-/

namespace TNCO

theorem getD_iff (rows : List (ℕ × List (List ℕ))) (tok : List ℕ) (k : ℕ) :
    (∃ d ts, rows[k]? = some (d, ts) ∧ tok ∈ ts) ↔ k < rows.length ∧ tok ∈ (rows.getD k (0, [])).2 := by
  by_cases hk : k < rows.length
  · simp only [List.getD_eq_getElem?_getD, List.getElem?_eq_getElem hk, Option.some.injEq, Option.getD_some, hk, true_and]
    constructor
    · rintro ⟨d, ts, h, ht⟩; rw [h]; exact ht
    · intro h; exact ⟨_, _, rfl, h⟩
  · simp [hk, List.getElem?_eq_none (Nat.le_of_not_lt hk)]

theorem rowDim_eq (rows : List (ℕ × List (List ℕ))) (k : ℕ) : rowDim rows k = textDim rows k := by
  unfold rowDim textDim
  rw [List.getD_eq_getElem?_getD]
  cases rows[k]? <;> rfl

theorem mem_textInds {rows : List (ℕ × List (List ℕ))} {t : List ℕ} {k : ℕ} : k ∈ textInds rows t ↔ k < rows.length ∧ t ∈ (rows.getD k (0, [])).2 := by
  simp [textInds]

theorem textInds_nodup (rows : List (ℕ × List (List ℕ))) (t : List ℕ) : (textInds rows t).Nodup := List.nodup_range.filter _

theorem listed_textInds {rows : List (ℕ × List (List ℕ))} (hr : ∀ r ∈ rows, r.2.Nodup) (t : List ℕ) : listed (rowsMap rows 0) t = textInds rows t := by
  have hp : (listed (rowsMap rows 0) t).Perm (textInds rows t) := by
    rw [List.perm_iff_count]
    intro k
    rw [count_listed, if_pos (Nat.zero_le _), Nat.sub_zero, count_of_nodup (textInds_nodup rows t)]
    have hm : k ∈ textInds rows t ↔ ∃ d ts, rows[k]? = some (d, ts) ∧ t ∈ ts := mem_textInds.trans (getD_iff rows t k).symm
    cases h : rows[k]? with
    | none =>
      rw [if_neg]
      · rfl
      · rw [hm, h]; simp
    | some r =>
      obtain ⟨d, ts⟩ := r
      have hn : ts.Nodup := hr _ (List.mem_of_getElem? h)
      simp only [Option.map_some, Option.getD_some]
      have hk : k ∈ textInds rows t ↔ t ∈ ts := by rw [hm, h]; simp
      by_cases ht : t ∈ ts
      · rw [if_pos (hk.2 ht)]; exact List.count_eq_one_of_mem hn ht
      · rw [if_neg (mt hk.1 ht)]; exact List.count_eq_zero_of_not_mem ht
  refine hp.eq_of_pairwise (le := (· ≤ ·)) (fun a b _ _ h1 h2 => le_antisymm h1 h2) (listed_sorted _ _ _).1 ?_
  exact (List.pairwise_lt_range.imp fun h => le_of_lt h).filter _

section
variable {rows : List (ℕ × List (List ℕ))} {outTok sparseTok : List ℕ}

theorem textNames_mem {t : List ℕ} : t ∈ textNames rows outTok sparseTok ↔ (∃ r ∈ rows, t ∈ r.2) ∧ t ≠ outTok ∧ t ≠ sparseTok := by
  simp only [textNames, List.mem_filter, mem_uniqueEverseen, List.mem_flatMap, decide_eq_true_eq]

/-- An index is in a tensor iff it is a row. -/
theorem mem_textTensors (h : RowsFit rows outTok sparseTok) {k : ℕ} : k ∈ (textTensors rows outTok sparseTok).flatten ↔ k < rows.length := by
  simp only [textTensors, List.mem_flatten, List.mem_map, exists_exists_and_eq_and, mem_textInds]
  constructor
  · rintro ⟨t, -, h1, -⟩; exact h1
  · intro hk
    have hm : rows.getD k (0, []) ∈ rows := by
      rw [List.getD_eq_getElem _ _ hk]; exact List.getElem_mem hk
    obtain ⟨t, ht, hto⟩ := (h.each _ hm).2
    exact ⟨t, textNames_mem.2 ⟨⟨_, hm, ht⟩, hto⟩, hk, ht⟩

theorem textDim_pos (h : RowsFit rows outTok sparseTok) {k : ℕ} (hk : k < rows.length) : 0 < textDim rows k := by
  unfold textDim
  rw [List.getD_eq_getElem _ _ hk]
  exact (h.each _ (List.getElem_mem hk)).1

theorem textNames_ne_nil (h : RowsFit rows outTok sparseTok) : textNames rows outTok sparseTok ≠ [] := by
  obtain ⟨r, hr⟩ := List.exists_mem_of_ne_nil _ h.nonempty
  obtain ⟨t, ht, hto⟩ := (h.each r hr).2
  exact List.ne_nil_of_mem (textNames_mem.2 ⟨⟨r, hr, ht⟩, hto⟩)

/-- The network of the rows, before anything is fused. -/
theorem loadRows_text (h : RowsFit rows outTok sparseTok) :
    ∃ N, loadRows rows outTok sparseTok = .ok N ∧ tensorNames rows outTok sparseTok = textNames rows outTok sparseTok ∧
      N.tsInds = textTensors rows outTok sparseTok ∧ (∀ k ∈ N.tsInds.flatten, dget N.dims k = some (textDim rows k)) ∧
      (∀ k, k ∈ N.output ↔ k < rows.length ∧ outTok ∈ (rows.getD k (0, [])).2) ∧
      ∀ k, k ∈ N.sparse ↔ k < rows.length ∧ sparseTok ∈ (rows.getD k (0, [])).2 := by
  obtain ⟨N, ts, r, n1, n2, n3, n4, n5, n6, n7, n8⟩ := loadRows_ok rows outTok sparseTok h.tokens h.each
  have hi : N.tsInds = ts.map Prod.snd := by
    unfold NetworkRec.tsInds
    rw [n5, List.map_map]; rfl
  refine ⟨N, n1, ?_, ?_, ?_, fun k => (n7 k).trans (getD_iff rows outTok k), fun k => (n8 k).trans (getD_iff rows sparseTok k)⟩
  · unfold tensorNames
    have : (rows.zipIdx.map fun r => (r.2, r.1.1, r.1.2)) = rowsMap rows 0 := rfl
    rw [this, n2]
    exact n3
  · rw [hi, textTensors, textNames, ← n3, List.map_map]
    refine List.map_congr_left fun e he => ?_
    rw [n4 e he, listed_textInds h.nodup]; rfl
  · intro k hk
    rw [hi] at hk
    obtain ⟨l, hl, hkl⟩ := List.mem_flatten.1 hk
    obtain ⟨e, he, rfl⟩ := List.mem_map.1 hl
    rw [n6 e he k hkl, rowDim_eq]

end

/-! ## Contractions without arrays -/

section
variable {ι : Type} [DecidableEq ι]

/-- What is left of each tensor, without arrays. -/
theorem contractInds_held {enum : Finset ι → List ι} (he : EnumOk enum) {path : List (ℕ × ℕ)} {tsInds : List (List ι)} {out : Finset ι}
    {dims : ι → Option ℕ} {d : ι → ℕ} (hn : ∀ xs ∈ tsInds, xs.Nodup) (hd : ∀ x ∈ tsInds.flatten, dims x = some (d x))
    (ho : ∀ x ∈ out, x ∈ tsInds.flatten) {F : List Term} (hF : replay (initTerms tsInds.length) path = some F) :
    ∃ inds, contractInds enum path tsInds (some (enum out)) (some (.dict dims)) = .ok (inds, out) ∧
      List.Forall₂ (fun xs t => xs.Nodup ∧ ∀ x, x ∈ xs ↔ x ∈ termInds tsInds out t) inds F := by
  have hc : Consistent d (tsInds.map fun xs => zeroArray (xs.map d)) tsInds := by
    refine ⟨by simp, fun t ht => ?_⟩
    rw [List.zip_map_left, List.zip_eq_zipWith, List.zipWith_self, List.map_map] at ht
    obtain ⟨xs, -, rfl⟩ := List.mem_map.1 ht
    rfl
  obtain ⟨⟨inds, out', arrs⟩, h1⟩ := (C31_succeeds enum he path tsInds (some (enum out)) _ (some (.dict dims)) hn d hc
    (fun D hD x hx => by cases hD; exact hd x hx) (fun x hx => ho x (((he out).2 x).1 hx))).1 ⟨F, hF⟩
  obtain ⟨-, v2, rfl, v4, v5, -⟩ := contract_einsum he hn hc h1
  obtain ⟨F', h2, h3⟩ := C59_held enum he path tsInds _ _ _ hn inds out' arrs h1
  rw [hF] at h2
  cases h2
  exact ⟨inds, C31_inds_only enum he path tsInds _ _ _ hn inds out' arrs h1 (.dict dims) (fun x hx => by
    show (dims x).isSome; rw [hd x hx]; rfl), h3⟩

omit [DecidableEq ι] in
theorem forall₂_getLast {α β : Type} {R : α → β → Prop} {l : List α} {m : List β} (h : List.Forall₂ R l m) {a : α} {b : β} (ha : l.getLast? = some a)
    (hb : m.getLast? = some b) : R a b := by
  have h' := List.rel_reverse h
  rw [List.getLast?_eq_head?_reverse] at ha hb
  generalize l.reverse = l' at h' ha
  generalize m.reverse = m' at h' hb
  cases h' with
  | nil => simp at ha
  | cons h1 _ =>
    simp only [List.head?_cons, Option.some.injEq] at ha hb
    subst ha hb
    exact h1

/-- Every contraction of a path is the last tensor after a part of the path. -/
theorem trace_last {path : List (ℕ × ℕ)} {ts F : List Term} (h : replay ts path = some F) {t : Term} (ht : t ∈ trace ts path) :
    ∃ i, i < path.length ∧ ∃ G, replay ts (path.take (i + 1)) = some G ∧ G.getLast? = some t := by
  induction path generalizing ts with
  | nil => simp [trace] at ht
  | cons s path ih =>
    obtain ⟨x, y⟩ := s
    simp only [replay] at h
    split at h
    · cases h
    · next hxy =>
      split at h
      · next a b ha hb =>
        simp only [trace, ha, hb, List.mem_cons] at ht
        rcases ht with rfl | ht
        · refine ⟨0, by simp, (ts.eraseIdx (max x y)).eraseIdx (min x y) ++ [.pair a b], ?_, by simp⟩
          simp [replay, hxy, ha, hb]
        · obtain ⟨i, hi, G, h1, h2⟩ := ih h ht
          refine ⟨i + 1, by simpa using hi, G, ?_, h2⟩
          simp only [List.take_succ_cons, replay, hxy, if_false, ha, hb]
          exact h1
      · cases h

end

/-! ## The network after loading -/

section
variable {rows : List (ℕ × List (List ℕ))} {outTok sparseTok : List ℕ}

theorem textTensors_nodup : ∀ xs ∈ textTensors rows outTok sparseTok, xs.Nodup := by
  intro xs hxs
  obtain ⟨t, -, rfl⟩ := List.mem_map.1 hxs
  exact textInds_nodup rows t

theorem textTensors_length : (textTensors rows outTok sparseTok).length = (textNames rows outTok sparseTok).length := by simp [textTensors]

theorem unique_rows (h : RowsFit rows outTok sparseTok) : (uniqueEverseen (textTensors rows outTok sparseTok).flatten).length ≤ rows.length := by
  have hsub : uniqueEverseen (textTensors rows outTok sparseTok).flatten ⊆ List.range rows.length := by
    intro k hk
    rw [mem_uniqueEverseen, mem_textTensors h] at hk
    exact List.mem_range.2 hk
  have := ((uniqueEverseen_nodup _).subperm hsub).length_le
  rwa [List.length_range] at this

theorem rowsNet_ok (h : RowsFit rows outTok sparseTok) {N : NetworkRec ℕ} (h1 : N.tsInds = textTensors rows outTok sparseTok)
    (h2 : ∀ k ∈ N.tsInds.flatten, dget N.dims k = some (textDim rows k))
    (h3 : ∀ k, k ∈ N.output ↔ k < rows.length ∧ outTok ∈ (rows.getD k (0, [])).2)
    (h4 : ∀ k, k ∈ N.sparse ↔ k < rows.length ∧ sparseTok ∈ (rows.getD k (0, [])).2) :
    (rowsNet N (textNames rows outTok sparseTok)).Ok (textDim rows) where
  arrays := by simp [rowsNet, NetworkRec.tsInds]
  tags := by simp only [rowsNet, List.length_map, h1, textTensors_length]
  dims := fun x hx => ⟨h2 x hx, textDim_pos h ((mem_textTensors h).1 (h1 ▸ hx))⟩
  shape := by
    rintro ⟨a, xs⟩ ht b rfl
    have := (List.of_mem_zip ht).1
    simp [rowsNet] at this
  nodup := by
    show ∀ xs ∈ N.tsInds, xs.Nodup
    rw [h1]; exact textTensors_nodup
  output := fun x hx => by
    show x ∈ N.tsInds.flatten
    rw [h1, mem_textTensors h]; exact ((h3 x).1 hx).1
  sparse := fun x hx => by
    show x ∈ N.tsInds.flatten
    rw [h1, mem_textTensors h]; exact ((h4 x).1 hx).1

theorem tagsOf_names (names : List (List ℕ)) (t : Term) (ht : ∀ i ∈ t.tensors, i < names.length) :
    ((t.tagsOf fun i => ((names.map fun n => some (TagTree.leaf (T := TagsJ) [(.str keyName, .str n)]))[i]?).getD none).map tagsJ) =
      some (termTags names t) := by
  induction t with
  | tensor i =>
    have hi := ht i (by simp [Term.tensors])
    simp [Term.tagsOf, List.getElem?_eq_getElem hi, tagsJ, termTags]
  | pair a b iha ihb =>
    have ha := iha fun i hi => ht i (by simp [Term.tensors, hi])
    have hb := ihb fun i hi => ht i (by simp [Term.tensors, hi])
    obtain ⟨x, hx, hx'⟩ := Option.map_eq_some_iff.1 ha
    obtain ⟨y, hy, hy'⟩ := Option.map_eq_some_iff.1 hb
    simp only [Term.tagsOf, hx, hy, Option.map_some, tagsJ, termTags, hx', hy']

theorem terms_lt {path : List (ℕ × ℕ)} {n : ℕ} {F : List Term} (h : replay (initTerms n) path = some F) {t : Term} (ht : t ∈ F) : ∀ i ∈ t.tensors, i < n := by
  intro i hi
  exact List.mem_range.1 ((replay_tensors_init h).mem_iff.1 (List.mem_flatMap.2 ⟨t, ht, hi⟩))

variable {σ W : Type} [Zero W] [Add W] [LT W] [DecidableLT W]

/-- What `load_tn` returns for rows that are as they should be. -/
theorem loadRows_loaded {A : LoadNetArgs ℕ σ W} (hA : A.Ok) (h : RowsFit rows outTok sparseTok)
    (hfuel : (textNames rows outTok sparseTok).length + rows.length < A.fuel) :
    ∃ N path F, loadRowsNet A outTok sparseTok rows = some (.ok N) ∧ TextLoaded rows outTok sparseTok A.log2 A.fuse N path F := by
  obtain ⟨R, r1, r2, r3, r4, r5, r6⟩ := loadRows_text h
  have hok := rowsNet_ok h r3 r4 r5 r6
  set M := rowsNet R (textNames rows outTok sparseTok) with hM
  have hMi : M.tsInds = textTensors rows outTok sparseTok := r3
  have hlen : M.tsInds.length = (textNames rows outTok sparseTok).length := by rw [hMi, textTensors_length]
  have hnone : ∀ a ∈ M.arrays, a = none := by
    intro a ha
    obtain ⟨-, -, rfl⟩ := List.mem_map.1 ha
    rfl
  have hload : loadRowsNet A outTok sparseTok rows = loadNet A M := by
    unfold loadRowsNet
    rw [r1, r2]
  have hne : M.arrays ≠ [] := by
    intro h0
    have h1 := hok.arrays
    rw [h0, hlen] at h1
    exact textNames_ne_nil h (List.length_eq_zero_iff.1 h1.symm)
  have htag : ∀ {path F}, replay (initTerms (textNames rows outTok sparseTok).length) path = some F → ∀ t ∈ F,
      (t.tagsOf fun i => (M.tsTags[i]?).getD none).map tagsJ = some (termTags (textNames rows outTok sparseTok) t) :=
    fun {path F} hF t ht => tagsOf_names _ t (terms_lt hF ht)
  by_cases hdo : R.sparse = ∅ ∧ ∃ w, A.Fuses w
  · obtain ⟨hs, w, hw⟩ := hdo
    obtain ⟨N, path, n1, n2, n3, n4, n5, n6⟩ := C57_inds A hA (textDim rows) M hok hs hnone hne w hw rfl (by
      rw [hlen, hMi]
      have := unique_rows h
      omega)
    obtain ⟨F, f1, f2⟩ := n2.tags
    have hout : N.output = R.output := n2.output
    obtain ⟨inds, g1, g2⟩ := contractInds_held hA.enum hok.nodup (fun x hx => (hok.dims x hx).1) hok.output f1
    have hinds : inds = N.tsInds := by
      have := g1.symm.trans n2.inds
      simp only [Except.ok.injEq, Prod.mk.injEq] at this
      exact this.1
    subst hinds
    rw [hlen] at f1
    have hFl : F.length = N.tsInds.length := g2.length_eq.symm
    refine ⟨N, path, F, hload.trans n1, ⟨Or.inl n2.recorded, ?_, f1, ?_, ?_, ?_, ?_, ?_, ?_, ?_⟩⟩
    · rintro (⟨r, hr, hsp⟩ | hnw)
      · exfalso
        obtain ⟨k, hk⟩ := List.mem_iff_getElem?.1 hr
        have : k ∈ R.sparse := (r6 k).2 ((getD_iff rows sparseTok k).1 ⟨r.1, r.2, hk, hsp⟩)
        rw [hs] at this
        simp at this
      · exact absurd hw.2 (hnw w hw.1)
    · rw [hout, ← hMi]; exact g2
    · rw [f2, List.map_map]
      exact List.map_congr_left fun t ht => htag f1 t ht
    · rw [hFl, ← n4]
      exact List.eq_replicate_iff.2 ⟨rfl, n5⟩
    · exact fun x hx => (n6 x _).2 ⟨hx, rfl⟩
    · rw [hout]; exact r5
    · intro k
      have : N.sparse = R.sparse := n2.sparse
      rw [this]; exact r6 k
    · intro w' hw' t ht
      have : w' = w := by rw [hw.1] at hw'; exact (Option.some.inj hw').symm
      subst this
      obtain ⟨i, hi, G, G1, G2⟩ := trace_last f1 ht
      obtain ⟨inds', outR, zs, xs, k1, k2, k3, k4⟩ := n2.width i hi
      rw [← hlen] at G1
      obtain ⟨inds2, l1, l2⟩ := contractInds_held hA.enum hok.nodup (fun x hx => (hok.dims x hx).1) hok.output G1
      have := k1.symm.trans l1
      simp only [Except.ok.injEq, Prod.mk.injEq] at this
      obtain ⟨rfl, -⟩ := this
      obtain ⟨hnd, hmem⟩ := forall₂_getLast l2 k2 G2
      refine ⟨xs, k3.nodup_iff.1 hnd, fun x => ?_, k4⟩
      rw [← k3.mem_iff, hout, ← hMi]
      exact hmem x
  · obtain ⟨N, n1, e1, e2, e3, e4, e5, -, e7, e8⟩ := C57_unchanged A hA (textDim rows) M hok (by
      by_cases hs : M.sparse = ∅
      · refine Or.inr (Or.inr ⟨Or.inr ?_, fun hw => hdo ⟨hs, hw⟩⟩)
        obtain ⟨a, ha⟩ := List.exists_mem_of_ne_nil _ hne
        exact ⟨a, ha, hnone a ha⟩
      · exact Or.inl hs)
    have hF : replay (initTerms M.tsInds.length) [] = some (initTerms M.tsInds.length) := rfl
    obtain ⟨inds, g1, g2⟩ := contractInds_held hA.enum hok.nodup (fun x hx => (hok.dims x hx).1) hok.output hF
    have hinds : inds = N.tsInds := by
      rw [e1]
      unfold contractInds at g1
      split at g1
      · cases g1
      · split at g1
        · cases g1
        · simp only [contractIndsLoop, Except.ok.injEq, Prod.mk.injEq] at g1
          exact g1.1.symm
    subst hinds
    rw [hlen] at hF
    refine ⟨N, [], initTerms M.tsInds.length, hload.trans n1, ⟨Or.inr ⟨e7, rfl⟩, fun _ => rfl, by rw [hF, hlen], ?_, ?_, ?_, ?_, ?_, ?_, ?_⟩⟩
    · rw [e4, ← hMi]; exact g2
    · rw [e3, hlen]
      refine List.ext_getElem? fun i => ?_
      by_cases hi : i < (textNames rows outTok sparseTok).length
      · simp [hM, rowsNet, initTerms, hi, tagsJ, termTags, List.getElem?_range]
      · simp [hM, rowsNet, initTerms, Nat.le_of_not_lt hi]
    · rw [e2, List.eq_replicate_iff]
      refine ⟨by rw [hok.arrays]; simp [initTerms], hnone⟩
    · exact fun x hx => (e8 x _).2 ⟨e1 ▸ hx, rfl⟩
    · rw [e4]; exact r5
    · rw [e5]; exact r6
    · intro w _ t ht
      simp [trace] at ht

end

end TNCO
