import Verif.Lemmas.Program
import Verif.Lemmas.Fused
import Verif.Props.Report
import Verif.Props.JsonOut
import Verif.Props.AppIO

/-!
# The program: the network for the optimizer, and the output
-/

namespace TNCO

/-! ## The network for the optimizer -/

section
variable {W : Type} [Zero W] [Add W] [LT W] {rows : List (ℕ × List (List ℕ))} {outTok sparseTok : List ℕ} {log2 : ℕ → W} {fuse : Option W}
  {N : ArrNet ℕ ℤ TagsJ} {path : List (ℕ × ℕ)} {F : List Term}

theorem toRec_tsInds (N : ArrNet ℕ ℤ TagsJ) : N.toRec.tsInds = N.tsInds := by
  unfold NetworkRec.tsInds ArrNet.toRec
  rw [List.map_map]
  exact List.map_id _

theorem TextLoaded.left (h : TextLoaded rows outTok sparseTok log2 fuse N path F) : LeftOf (textTensors rows outTok sparseTok) N.output path F N.tsInds :=
  ⟨by rw [textTensors_length]; exact h.terms, h.inds.imp fun _ _ h => h.2⟩

theorem TextLoaded.out (h : TextLoaded rows outTok sparseTok log2 fuse N path F) : N.output = (textInds rows outTok).toFinset := by
  ext k
  rw [h.output, List.mem_toFinset, mem_textInds]

theorem TextLoaded.sp (h : TextLoaded rows outTok sparseTok log2 fuse N path F) : N.sparse = (textInds rows sparseTok).toFinset := by
  ext k
  rw [h.sparse, List.mem_toFinset, mem_textInds]

theorem dget_filterMap {l : List ℕ} (hl : l.Nodup) (f : ℕ → Option ℕ) {x : ℕ} (hx : x ∈ l) : dget (l.filterMap fun x => (f x).map fun d => (x, d)) x = f x := by
  induction l with
  | nil => cases hx
  | cons y l ih =>
    obtain ⟨hy, hl⟩ := List.nodup_cons.1 hl
    rcases List.mem_cons.1 hx with rfl | hx
    · cases h : f x with
      | none =>
        simp only [List.filterMap_cons, h, Option.map_none]
        rw [dget_none]
        intro hm
        simp only [List.map_filterMap, List.mem_filterMap, Option.map_map] at hm
        obtain ⟨z, hz, h'⟩ := hm
        cases hfz : f z with
        | none => rw [hfz] at h'; cases h'
        | some d =>
          rw [hfz] at h'
          simp only [Option.map_some, Function.comp_apply, Option.some.injEq] at h'
          subst h'
          exact hy hz
      | some d => simp [List.filterMap_cons, h, dget]
    · have hne : y ≠ x := fun e => hy (e ▸ hx)
      cases h : f y with
      | none => simp only [List.filterMap_cons, h, Option.map_none]; exact ih hl hx
      | some d =>
        simp only [List.filterMap_cons, h, Option.map_some]
        rw [show dget ((y, d) :: l.filterMap fun x => (f x).map fun d => (x, d)) x = dget (l.filterMap fun x => (f x).map fun d => (x, d)) x by simp [dget, hne]]
        exact ih hl hx

theorem toRec_dims {x : ℕ} (hx : x ∈ N.tsInds.flatten) : dget N.toRec.dims x = N.dims x :=
  dget_filterMap (uniqueEverseen_nodup _) N.dims (mem_uniqueEverseen.2 hx)

theorem TextLoaded.dim (h : TextLoaded rows outTok sparseTok log2 fuse N path F) {x : ℕ} (hx : x ∈ N.tsInds.flatten) : N.toRec.dim x = textDim rows x := by
  unfold NetworkRec.dim
  rw [toRec_dims hx, h.dims x hx]
  rfl

theorem TextLoaded.plain (h : TextLoaded rows outTok sparseTok log2 fuse N path F) (hr : RowsFit rows outTok sparseTok) : N.toRec.Plain := by
  refine ⟨fun l hl => ?_, fun l hl x hx => ?_⟩
  · rw [toRec_tsInds] at hl
    obtain ⟨t, -, ht⟩ := forall₂_mem_left h.inds hl
    exact ht.1
  · rw [toRec_tsInds] at hl
    have hf := List.mem_flatten.2 ⟨l, hl, hx⟩
    refine ⟨textDim rows x, ?_, by rw [toRec_dims hf, h.dims x hf]⟩
    exact (textDim_pos hr ((mem_textTensors hr).1 (h.left.sub hf))).ne'

theorem TextLoaded.size (h : TextLoaded rows outTok sparseTok log2 fuse N path F) (hr : RowsFit rows outTok sparseTok) :
    N.tsInds.length + (uniqueEverseen N.tsInds.flatten).length ≤ (textNames rows outTok sparseTok).length + rows.length ∧ 0 < N.tsInds.length := by
  have h1 := Linear.replay_length h.terms
  rw [initTerms, List.length_map, List.length_range] at h1
  have h2 : (uniqueEverseen N.tsInds.flatten).length ≤ rows.length := by
    have hsub : uniqueEverseen N.tsInds.flatten ⊆ List.range rows.length := by
      intro k hk
      exact List.mem_range.2 ((mem_textTensors hr).1 (h.left.sub (mem_uniqueEverseen.1 hk)))
    have := ((uniqueEverseen_nodup _).subperm hsub).length_le
    rwa [List.length_range] at this
  refine ⟨by rw [h.left.length]; omega, ?_⟩
  rw [h.left.length]
  obtain ⟨i, u, hu, -⟩ := h.left.find (q := 0) (by rw [textTensors_length]; exact List.length_pos_of_ne_nil (textNames_ne_nil hr))
  obtain ⟨hi, -⟩ := List.getElem?_eq_some_iff.1 hu
  omega

theorem TextLoaded.cost (h : TextLoaded rows outTok sparseTok log2 fuse N path F) (nProjs : Option ℤ) {S : Finset ℕ} (hS : ∀ x ∈ S, x ∈ N.tsInds.flatten)
    {q : List (ℕ × ℕ)} {G : List Term} (hG : replay (initTerms N.tsInds.length) q = some G) :
    textCost rows outTok sparseTok nProjs S (path ++ q) =
      textCost rows outTok sparseTok nProjs S path + pathCost (N.toRec.cost ⟨some N.toRec.sparse, nProjs⟩) N.toRec.tsInds N.toRec.output S q := by
  unfold textCost
  rw [← h.out, h.left.cost _ S hG, toRec_tsInds]
  congr 1
  refine pathCost_congr hS (fun s hs => ?_) q
  rw [← h.sp]
  exact nameCost_congr (fun x hx => (h.dim (hs x hx)).symm) _ _

end

/-! ## The rows of a text -/

theorem names_chars {rest : List ℕ} {names : List (List ℕ)} (h : IsNames rest names) : ∀ t ∈ names, ∀ c ∈ t, c ∈ rest := by
  induction h with
  | nil => simp
  | cons ws name rest names _ _ _ _ _ _ ih =>
    intro t ht c hc
    rcases List.mem_cons.1 ht with rfl | ht
    · simp [hc]
    · simp [ih t ht c hc]

theorem rows_chars {digit : ℕ → Option ℕ} {ls : List (List ℕ)} {rows : List (ℕ × List (List ℕ))} (h : IsRows digit ls rows) :
    ∀ r ∈ rows, ∀ t ∈ r.2, ∀ c ∈ t, ∃ l ∈ ls, c ∈ l := by
  induction h with
  | nil => simp
  | skip l ls rows _ _ ih =>
    intro r hr t ht c hc
    obtain ⟨l', hl', h'⟩ := ih r hr t ht c hc
    exact ⟨l', List.mem_cons_of_mem _ hl', h'⟩
  | data l ls d names rows hd _ ih =>
    intro r hr t ht c hc
    rcases List.mem_cons.1 hr with rfl | hr
    · obtain ⟨ds, rest, rfl, -, -, hn⟩ := hd
      exact ⟨_, List.mem_cons_self, List.mem_append_right _ (names_chars hn t ht c hc)⟩
    · obtain ⟨l', hl', h'⟩ := ih r hr t ht c hc
      exact ⟨l', List.mem_cons_of_mem _ hl', h'⟩

theorem lines_chars {s : List ℕ} {ls : List (List ℕ)} (h : IsLines s ls) : ∀ l ∈ ls, ∀ c ∈ l, c ∈ s := by
  induction h with
  | nil => simp
  | last l _ _ => simp
  | one l b s ls _ _ _ _ ih =>
    intro m hm c hc
    rcases List.mem_cons.1 hm with rfl | hm
    · simp [hc]
    · simp [ih m hm c hc]
  | crlf l s ls _ _ ih =>
    intro m hm c hc
    rcases List.mem_cons.1 hm with rfl | hm
    · simp [hc]
    · simp [ih m hm c hc]

/-! ## The output -/

theorem written_nats {e : EncoderJ} {l : List ℕ} {is : List Json} (h : List.Forall₂ (Written e) (l.map fun x : ℕ => PyJ.int x) is) : is = l.map natJson := by
  induction l generalizing is with
  | nil => cases h; rfl
  | cons x l ih =>
    cases h with
    | cons h1 h2 =>
      rw [List.map_cons, ← ih h2]
      unfold Written PyJ.value at h1
      rw [Option.some.injEq] at h1
      rw [← h1]; rfl

theorem termTags_ok {names : List (List ℕ)} (hn : ∀ t ∈ names, TextOk t) (t : Term) : ∀ p ∈ termTags names t, p.1.Ok ∧ p.2.Ok := by
  have key : ∀ t : Term, PyJ.OkDict (termTags names t) := by
    intro t
    induction t with
    | tensor i =>
      refine ⟨charOk_small (by decide), ?_, trivial⟩
      rw [List.getD_eq_getElem?_getD]
      cases h : names[i]? with
      | none => exact fun c hc => absurd hc (by simp)
      | some s => exact hn s (List.mem_of_getElem? h)
    | pair a b iha ihb => exact ⟨charOk_small (by decide), iha, charOk_small (by decide), ihb, trivial⟩
  have all : ∀ m : TagsJ, PyJ.OkDict m → ∀ p ∈ m, p.1.Ok ∧ p.2.Ok := by
    intro m
    induction m with
    | nil => simp
    | cons q m ih =>
      obtain ⟨k, o⟩ := q
      rintro ⟨h1, h2, h3⟩ p hp
      rcases List.mem_cons.1 hp with rfl | hp
      · exact ⟨h1, h2⟩
      · exact ih h3 p hp
  exact all _ (key t)

section
variable {W : Type} [Zero W] [Add W] [LT W] {rows : List (ℕ × List (List ℕ))} {outTok sparseTok : List ℕ} {log2 : ℕ → W} {fuse : Option W}
  {N : ArrNet ℕ ℤ TagsJ} {path : List (ℕ × ℕ)} {F : List Term}

/-- The tensors of the network, for the encoder. -/
theorem TextLoaded.toJ_tensors (h : TextLoaded rows outTok sparseTok log2 fuse N path F) (enum : Finset ℕ → List ℕ) :
    (N.toJ enum).tensors = (N.tsInds.zip F).map fun e =>
      ⟨e.1.map fun x : ℕ => .int x, e.1.map (textDim rows), none, termTags (textNames rows outTok sparseTok) e.2⟩ := by
  have hl := h.left.length
  have ht : N.tsTags.length = F.length := by simpa using congrArg List.length h.tags
  have ha : N.arrays.length = F.length := by rw [h.arrays]; simp
  unfold ArrNet.toJ
  apply List.ext_getElem
  · simp [hl, ht, ha]
  · intro i h1 h2
    have hi : i < F.length := by simp at h2; omega
    simp only [List.getElem_map, List.getElem_zip]
    have e1 : N.arrays[i]'(by omega) = none := by simp [h.arrays]
    have e2 : (N.tsTags[i]'(by omega)).map tagsJ = some (termTags (textNames rows outTok sparseTok) F[i]) := by
      have := congrArg (fun l => l[i]?) h.tags
      simpa [List.getElem?_eq_getElem hi, List.getElem?_eq_getElem (ht ▸ hi : i < N.tsTags.length)] using this
    rw [e1, e2]
    simp only [Option.map_none, Option.getD_some, TensorJ.mk.injEq, true_and, and_true]
    refine List.map_congr_left fun x hx => ?_
    rw [h.dims x (List.mem_flatten.2 ⟨_, List.getElem_mem _, hx⟩)]
    rfl

theorem TextLoaded.toJ_ok (h : TextLoaded rows outTok sparseTok log2 fuse N path F) (hn : ∀ t ∈ textNames rows outTok sparseTok, TextOk t)
    (enum : Finset ℕ → List ℕ) : (N.toJ enum).Ok := by
  refine ⟨?_, ?_, ?_⟩
  · rw [h.toJ_tensors enum]
    intro t ht
    obtain ⟨e, -, rfl⟩ := List.mem_map.1 ht
    refine ⟨?_, by simp, termTags_ok hn e.2⟩
    intro o ho
    obtain ⟨x, -, rfl⟩ := List.mem_map.1 ho
    trivial
  · intro o ho
    obtain ⟨x, -, rfl⟩ := List.mem_map.1 ho
    trivial
  · intro o ho
    obtain ⟨x, -, rfl⟩ := List.mem_map.1 ho
    trivial

theorem TextLoaded.written (h : TextLoaded rows outTok sparseTok log2 fuse N path F) {enum : Finset ℕ → List ℕ} (he : EnumOk enum) {j : Json}
    (hw : WrittenNetwork (N.toJ enum) j) : TextWritten rows (textNames rows outTok sparseTok) N F j := by
  obtain ⟨ts, out, sp, rfl, h1, h2, h3⟩ := hw
  refine ⟨ts, enum N.output, enum N.sparse, ?_, ?_, (he _).1, (he _).2, (he _).1, (he _).2⟩
  · rw [written_nats h2, written_nats h3]
  · rw [h.toJ_tensors enum, List.forall₂_map_left_iff] at h1
    refine h1.imp fun e j hj => ?_
    obtain ⟨is, a, tags, rfl, k1, k2, k3⟩ := hj
    refine ⟨tags, ?_, k3⟩
    rw [written_nats k1, k2.null rfl, List.map_map]
    rfl

end

theorem cost_written {e : EncoderJ} (he : e ≠ .network) {decimal : ℚ → List ℕ} {paths : List (List (ℕ × ℕ))} {c : ℚ} {j : Json}
    (h : Written e (costJ decimal paths c) j) : costText decimal paths c j := by
  unfold costJ at h
  split at h
  · next hp =>
    left
    refine ⟨fun p hp' => by simpa using List.all_eq_true.1 hp p hp', ?_⟩
    unfold Written PyJ.value at h
    rw [Option.some.injEq] at h
    rw [← h]; rfl
  · next hp =>
    right
    refine ⟨?_, ?_⟩
    · simpa using hp
    · unfold Written PyJ.value at h
      rw [if_neg he, Option.some.injEq] at h
      exact h.symm

theorem inf_written {part decimal : ℚ → List ℕ} {t : PyJ} {r : InfResultOf ℚ} {j : Json} (h : WrittenResult (infResultJ part decimal t r) j) : InfWritten decimal r j := by
  obtain ⟨c, t', more, rfl, h1, h2, h3, -⟩ := h
  rw [h3 rfl]
  exact ⟨c, t', rfl, cost_written (fun e => by cases e) h1⟩

theorem fw_written {part decimal : ℚ → List ℕ} {enum : Finset ℕ → List ℕ} (he : EnumOk enum) {t : PyJ} {r : FwResultOf ℚ ℕ} {j : Json}
    (h : WrittenResult (fwResultJ part decimal enum t r) j) : FwWritten decimal r j := by
  obtain ⟨c, t', more, rfl, h1, h2, -, h4⟩ := h
  obtain ⟨js, j', rfl, h5, h6⟩ := h4 _ _ rfl
  refine ⟨c, t', js, enum r.slices, ?_, cost_written (fun e => by cases e) h1, (he _).1, (he _).2, ?_⟩
  · rw [written_nats h5]; rfl
  · rw [List.forall₂_map_left_iff] at h6
    refine h6.imp fun S j hj => ?_
    obtain ⟨l, rfl, hl⟩ := hj
    exact ⟨enum S, by rw [written_nats hl], (he _).1, (he _).2⟩

theorem costJ_ok {decimal : ℚ → List ℕ} (hd : ∀ c, TextOk (decimal c)) (paths : List (List (ℕ × ℕ))) (c : ℚ) : (costJ decimal paths c).Ok := by
  unfold costJ
  split
  · trivial
  · exact hd c

theorem infResultJ_ok {part decimal : ℚ → List ℕ} (hd : ∀ c, TextOk (decimal c)) {t : PyJ} (ht : t.Ok) (r : InfResultOf ℚ) : (infResultJ part decimal t r).Ok :=
  ⟨costJ_ok hd _ _, ht, by simp [infResultJ]⟩

theorem fwResultJ_ok {part decimal : ℚ → List ℕ} (hd : ∀ c, TextOk (decimal c)) (enum : Finset ℕ → List ℕ) {t : PyJ} (ht : t.Ok) (r : FwResultOf ℚ ℕ) :
    (fwResultJ part decimal enum t r).Ok := by
  refine ⟨costJ_ok hd _ _, ht, ?_⟩
  intro ds s h
  simp only [fwResultJ, Option.some.injEq, Prod.mk.injEq] at h
  obtain ⟨rfl, rfl⟩ := h
  refine ⟨fun o ho => ?_, fun d hd o ho => ?_⟩
  · obtain ⟨x, -, rfl⟩ := List.mem_map.1 ho
    trivial
  · obtain ⟨S, -, rfl⟩ := List.mem_map.1 hd
    obtain ⟨x, -, rfl⟩ := List.mem_map.1 ho
    trivial

/-! ## Parts of paths -/

theorem replay_prefix {ts us : List Term} {p q : List (ℕ × ℕ)} (h : replay ts (p ++ q) = some us) : ∃ G, replay ts p = some G := by
  induction p generalizing ts with
  | nil => exact ⟨ts, rfl⟩
  | cons s p ih =>
    obtain ⟨x, y⟩ := s
    simp only [List.cons_append, replay] at h ⊢
    split at h
    · cases h
    · rw [if_neg ‹_›]
      split at h
      · exact ih h
      · cases h

theorem replay_lt {n : ℕ} {p : List (ℕ × ℕ)} {G : List Term} (h : replay (initTerms n) p = some G) : ∀ t ∈ G, ∀ i ∈ t.tensors, i < n := fun t ht i hi =>
  List.mem_range.1 ((replay_tensors_init h).mem_iff.1 (List.mem_flatMap.2 ⟨t, ht, hi⟩))

/-! ## Networks without open indices -/

/-- An index in several different members is counted as often. -/
theorem count_shared {α : Type} [DecidableEq α] {f : α → List ℕ} {l s : List α} {k : ℕ} (hs : s.Nodup) (hsub : s ⊆ l) (hk : ∀ t ∈ s, k ∈ f t) :
    s.length ≤ ((l.map f).flatten).count k := by
  obtain ⟨s', h1, h2⟩ := hs.subperm hsub
  rw [List.count_flatten, List.map_map, ← h1.length_eq]
  calc s'.length = (s'.map (List.count k ∘ f)).length := by simp
    _ ≤ (s'.map (List.count k ∘ f)).sum := List.length_le_sum_of_one_le _ fun i hi => by
        obtain ⟨t, ht, rfl⟩ := List.mem_map.1 hi
        exact List.count_pos_iff.2 (hk t (h1.mem_iff.1 ht))
    _ ≤ (l.map (List.count k ∘ f)).sum := (h2.map _).sum_le_sum fun _ _ => Nat.zero_le _

theorem text_two {rows : List (ℕ × List (List ℕ))} {outTok sparseTok : List ℕ} (h : RowsFit rows outTok sparseTok) (hc : RowsClosed rows outTok sparseTok) :
    ∀ x ∈ (textTensors rows outTok sparseTok).flatten, x ∉ textInds rows outTok → 2 ≤ (textTensors rows outTok sparseTok).flatten.count x := by
  intro x hx hxo
  have hlt := (mem_textTensors h).1 hx
  have hmem : rows.getD x (0, []) ∈ rows := by
    rw [List.getD_eq_getElem _ _ hlt]
    exact List.getElem_mem hlt
  rcases hc _ hmem with h1 | h1
  · exact absurd (mem_textInds.2 ⟨hlt, h1⟩) hxo
  · refine h1.trans (count_shared ((h.nodup _ hmem).filter _) ?_ ?_)
    · intro t ht
      obtain ⟨h2, h3⟩ := List.mem_filter.1 ht
      exact textNames_mem.2 ⟨⟨_, hmem, h2⟩, by simpa using h3⟩
    · intro t ht
      exact mem_textInds.2 ⟨hlt, (List.mem_filter.1 ht).1⟩

theorem text_out {rows : List (ℕ × List (List ℕ))} {outTok sparseTok : List ℕ} (h : RowsFit rows outTok sparseTok) :
    ∀ x ∈ textInds rows outTok, x ∈ (textTensors rows outTok sparseTok).flatten := fun _ hx => (mem_textTensors h).2 (mem_textInds.1 hx).1

theorem text_unsparse {rows : List (ℕ × List (List ℕ))} {sparseTok : List ℕ} (h : ∀ r ∈ rows, sparseTok ∉ r.2) : (textInds rows sparseTok).toFinset = ∅ := by
  refine Finset.eq_empty_of_forall_notMem fun k hk => ?_
  obtain ⟨hlt, h1⟩ := mem_textInds.1 (List.mem_toFinset.1 hk)
  rw [List.getD_eq_getElem _ _ hlt] at h1
  exact h _ (List.getElem_mem hlt) h1

/-! ## When the program returns -/

theorem LeftOf.holds {ι : Type} [DecidableEq ι] {T T' : List (List ι)} {out : Finset ι} {F : List Term} (h : LeftOf T out [] F T') (i : ℕ) (x : ι) :
    x ∈ T'.getD i [] ↔ x ∈ T.getD i [] := by
  have hF := h.terms
  simp only [replay, Option.some.injEq] at hF
  subst hF
  have hlen := h.length
  simp only [initTerms, List.length_map, List.length_range] at hlen
  by_cases hi : i < T.length
  · have h1 := (List.forall₂_iff_get.1 h.inds).2 i (by omega) (by simpa [initTerms] using hi) x
    rw [List.getD_eq_getElem _ _ (by omega)]
    simp only [List.get_eq_getElem] at h1
    rw [h1, mem_termInds]
    simp only [initTerms, List.getElem_map, List.getElem_range, Term.tensors, List.mem_singleton, exists_eq_left, Survives, and_iff_left_iff_imp]
    intro _
    by_cases hq : ∃ q < T.length, ¬ q = i ∧ x ∈ T.getD q []
    · exact Or.inr (Or.inl hq)
    · refine Or.inr (Or.inr fun p hp q hq' hpq => ?_)
      have one : ∀ r, r < T.length → x ∈ T.getD r [] → r = i := fun r hr hx => by
        by_contra hne
        exact hq ⟨r, hr, hne, hx⟩
      rw [one p hp hpq.1, one q hq' hpq.2]
  · rw [List.getD_eq_default _ _ (by omega), List.getD_eq_default _ _ (by omega)]

theorem SparseOk.congr {ι : Type} [DecidableEq ι] {T T' : List (List ι)} {sp : Finset ι} (h : ∀ i x, x ∈ T'.getD i [] ↔ x ∈ T.getD i []) (hs : SparseOk T sp) :
    SparseOk T' sp := by
  intro x hx i j y hij hi hj
  obtain ⟨k, hk, hkx⟩ := hs x hx i j y hij ((h i y).1 hi) ((h j y).1 hj)
  refine ⟨k, ?_, (h k x).2 hkx⟩
  refine Relation.ReflTransGen.mono (p := Adjacent T') (fun a b hab => ?_) _ _ hk
  obtain ⟨z, h1, h2⟩ := adjacent_iff.1 hab
  exact adjacent_iff.2 ⟨z, (h a z).2 h1, (h b z).2 h2⟩

section
variable {W : Type} [Zero W] [Add W] [LT W] {rows : List (ℕ × List (List ℕ))} {outTok sparseTok : List ℕ} {log2 : ℕ → W} {fuse : Option W}
  {N : ArrNet ℕ ℤ TagsJ} {path : List (ℕ × ℕ)} {F : List Term}

theorem TextLoaded.sparseOk (h : TextLoaded rows outTok sparseTok log2 fuse N path F) (hs : SparseOk (textTensors rows outTok sparseTok) (textInds rows sparseTok).toFinset) :
    SparseOk N.tsInds N.sparse := by
  rw [h.sp]
  by_cases hsp : ∃ r ∈ rows, sparseTok ∈ r.2
  · have hp := h.unfused (Or.inl hsp)
    have hl := h.left
    rw [hp] at hl
    exact hs.congr hl.holds
  · rw [text_unsparse fun r hr hm => hsp ⟨r, hr, hm⟩]
    intro x hx
    exact absurd hx (Finset.notMem_empty x)

theorem termTags_writes (names : List (List ℕ)) (t : Term) : PyJ.members .network (termTags names t) ≠ none := by
  induction t with
  | tensor i => simp [termTags, PyJ.members, PyJ.value, keyText]
  | pair a b iha ihb =>
    obtain ⟨ja, ha⟩ := Option.ne_none_iff_exists'.1 iha
    obtain ⟨jb, hb⟩ := Option.ne_none_iff_exists'.1 ihb
    simp [termTags, PyJ.members, PyJ.value, keyText, ha, hb]

theorem members_each {e : EncoderJ} (m : List (KeyJ × PyJ)) (h : PyJ.members e m ≠ none) : ∀ p ∈ m, ItemWritable e p := by
  induction m with
  | nil => simp
  | cons p m ih =>
    obtain ⟨k, o⟩ := p
    simp only [PyJ.members] at h
    cases hk : keyText k with
    | none => simp [hk] at h
    | some k' =>
      cases ho : PyJ.value e o with
      | none => simp [hk, ho] at h
      | some v =>
        intro q hq
        rcases List.mem_cons.1 hq with rfl | hq
        · exact ⟨by simp [hk], by simp [ho]⟩
        · exact ih (by intro h0; simp [hk, ho, h0] at h) q hq

theorem TextLoaded.toJ_writes (h : TextLoaded rows outTok sparseTok log2 fuse N path F) (hn : ∀ t ∈ textNames rows outTok sparseTok, TextOk t)
    (enum : Finset ℕ → List ℕ) : (N.toJ enum).toJson ≠ .error .typeError := by
  intro he
  have hi : ∀ l : List ℕ, ¬ ∃ o ∈ l.map fun x : ℕ => PyJ.int x, o.value .network = none := by
    rintro l ⟨o, ho, hv⟩
    obtain ⟨x, -, rfl⟩ := List.mem_map.1 ho
    simp [PyJ.value] at hv
  obtain ⟨-, ⟨t, ht, h1⟩ | h1 | h1⟩ := (C71_network_errors _ (h.toJ_ok hn enum) _).1 he
  · rw [h.toJ_tensors enum] at ht
    obtain ⟨e, -, rfl⟩ := List.mem_map.1 ht
    rcases h1 with h1 | ⟨A, hA, -⟩ | ⟨p, hp, h1⟩
    · exact hi _ h1
    · cases hA
    · exact h1 (members_each _ (termTags_writes _ _) p hp)
  · exact hi _ h1
  · exact hi _ h1

end

theorem costJ_writes (decimal : ℚ → List ℕ) (paths : List (List (ℕ × ℕ))) (c : ℚ) {e : EncoderJ} (he : e ≠ .network) : (costJ decimal paths c).value e ≠ none := by
  unfold costJ
  split <;> simp [PyJ.value, he]

theorem infResultJ_writes {part decimal : ℚ → List ℕ} (hd : ∀ c, TextOk (decimal c)) {time : PyJ} (ht : time.Ok) (hv : ∀ e, time.value e ≠ none) (r : InfResultOf ℚ) :
    (infResultJ part decimal time r).toJson ≠ .error .typeError := by
  intro he
  obtain ⟨-, h1 | h1 | ⟨ds, s, h1, -⟩⟩ := (C71_result_errors _ (infResultJ_ok hd ht r) _).1 he
  · exact costJ_writes _ _ _ (fun e => by cases e) h1
  · exact hv _ h1
  · cases h1

theorem fwResultJ_writes {part decimal : ℚ → List ℕ} (hd : ∀ c, TextOk (decimal c)) {enum : Finset ℕ → List ℕ} {time : PyJ} (ht : time.Ok) (hv : ∀ e, time.value e ≠ none)
    (r : FwResultOf ℚ ℕ) : (fwResultJ part decimal enum time r).toJson ≠ .error .typeError := by
  intro he
  have hi : ∀ l : List ℕ, ¬ ∃ o ∈ l.map fun x : ℕ => PyJ.int x, o.value .finite = none := by
    rintro l ⟨o, ho, hv⟩
    obtain ⟨x, -, rfl⟩ := List.mem_map.1 ho
    simp [PyJ.value] at hv
  obtain ⟨-, h1 | h1 | ⟨ds, s, h1, h2⟩⟩ := (C71_result_errors _ (fwResultJ_ok hd enum ht r) _).1 he
  · exact costJ_writes _ _ _ (fun e => by cases e) h1
  · exact hv _ h1
  · cases h1
    rcases h2 with h2 | ⟨d, hd, h2⟩
    · exact hi _ h2
    · obtain ⟨S, -, rfl⟩ := List.mem_map.1 hd
      exact hi _ h2

end TNCO
