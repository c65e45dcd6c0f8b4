import Verif.Lemmas.LoadText
import Verif.Props.Names
import Verif.Props.TensorNetwork

/-!
# C50: the text format
-/

namespace TNCO

section
variable {digit : ℕ → Option ℕ} {upper : ℕ → List ℕ}

theorem line_head (hd : DigitsOk digit) {l : List ℕ} (h : IsIgnored l ∨ isDataLine digit l = true) {c : ℕ} (hc : l.head? = some c) :
    isSpace c = true ∨ c = 35 ∨ (digit c).isSome = true := by
  cases l with
  | nil => cases hc
  | cons d l =>
    simp only [List.head?_cons, Option.some.injEq] at hc
    subst hc
    rcases h with (h | h) | h
    · exact Or.inl (h d List.mem_cons_self)
    · simp only [List.head?_cons, Option.some.injEq] at h
      exact Or.inr (Or.inl h)
    · rw [isDataLine, Bool.and_eq_true] at h
      exact Or.inr (Or.inr h.1)

/-- C50: a text is read as a list of indices exactly if all its lines are blank, comments or data, and not all of them are empty; the
rows are the data lines, in order. -/
theorem C50_text (hd : DigitsOk digit) (hu : UpperOk digit upper) (s : List ℕ) (rows : List (ℕ × List (List ℕ))) :
    textKind digit upper s = .ok (.inds rows) ↔ ∃ ls, IsLines s ls ∧ IsRows digit ls rows ∧ ∃ l ∈ ls, l ≠ [] := by
  constructor
  · intro h
    unfold textKind at h
    split at h
    · simp at h
    · split at h
      · cases h
      · next l r hf =>
        split at h
        · simp at h
        · split at h
          · simp at h
          · next hbad =>
            simp only [Except.ok.injEq, TextKind.inds.injEq] at h
            refine ⟨splitlines s, splitlines_iff.1 rfl, (rows_iff hd).2 ⟨by simpa using hbad, h⟩, l, ?_, ?_⟩
            · have : l ∈ l :: r := List.mem_cons_self
              rw [← hf] at this
              exact (List.mem_filter.1 this).1
            · have : l ∈ l :: r := List.mem_cons_self
              rw [← hf] at this
              have := (List.mem_filter.1 this).2
              rw [Bool.and_eq_true] at this
              intro h0
              simp [h0] at this
  · rintro ⟨ls, hls, hrows, l, hl, hl0⟩
    have hs := splitlines_of hls
    obtain ⟨hbad, hr⟩ := (rows_iff hd).1 hrows
    have hok : ∀ l ∈ ls, IsIgnored l ∨ isDataLine digit l = true := fun l hl => bad_iff.1 (by simpa using List.any_eq_false.1 hbad l hl)
    have h1 : s ≠ stdinText := by
      rintro rfl
      have e : splitlines stdinText = [stdinText] := by decide
      rw [e] at hs
      subst hs
      have := line_head hd (hok stdinText List.mem_cons_self) (c := 115) rfl
      rw [hd.2.2.2] at this
      revert this
      decide
    unfold textKind
    rw [if_neg h1, hs]
    have hfil : ls.filter (fun l => decide (l.length ≠ 0) && !([47, 47].isPrefixOf l)) = ls.filter fun l => decide (l.length ≠ 0) := by
      refine List.filter_congr fun l hl => ?_
      cases l with
      | nil => rfl
      | cons c l =>
        have := line_head hd (hok _ hl) (c := c) rfl
        have hc : c ≠ 47 := by
          rintro rfl
          rw [hd.2.2.1] at this
          revert this
          decide
        have : ([47, 47] : List ℕ).isPrefixOf (c :: l) = false := by
          rw [List.isPrefixOf]
          have : ((47 : ℕ) == c) = false := by simpa using Ne.symm hc
          simp [this]
        rw [this]
        simp
    rw [hfil]
    cases hf : ls.filter fun l => decide (l.length ≠ 0) with
    | nil =>
      have := List.filter_eq_nil_iff.1 hf l hl
      simp [hl0] at this
    | cons m r =>
      have hm : m ∈ m :: r := List.mem_cons_self
      rw [← hf] at hm
      obtain ⟨hm1, hm2⟩ := List.mem_filter.1 hm
      have hq : qasmText.isPrefixOf (m.flatMap upper) = false := by
        cases m with
        | nil => simp at hm2
        | cons c m =>
          obtain ⟨d, ds, e, hne⟩ := hu c (line_head hd (hok _ hm1) rfl)
          rw [List.flatMap_cons, e, List.cons_append, qasmText, List.isPrefixOf]
          have : ((79 : ℕ) == d) = false := by simpa using Ne.symm hne
          simp [this]
      simp only [hq, Bool.false_eq_true, if_false, hbad]
      rw [hr]

/-- C50: a text is rejected at once exactly if it has no lines but empty ones and ones starting with `//`, the comments of QASM. -/
theorem C50_no_lines (s : List ℕ) (ls : List (List ℕ)) (hs : IsLines s ls) (e : PyErr) :
    textKind digit upper s = .error e ↔ e = .valueError ∧ ∀ l ∈ ls, l = [] ∨ ∃ l', l = 47 :: 47 :: l' := by
  have hs := splitlines_of hs
  have hp : ∀ l : List ℕ, (decide (l.length ≠ 0) && !([47, 47].isPrefixOf l)) = false ↔ l = [] ∨ ∃ l', l = 47 :: 47 :: l' := by
    intro l
    rcases l with _ | ⟨a, _ | ⟨b, l⟩⟩
    · simp
    · simp [List.isPrefixOf]
    · simp only [List.length_cons, ne_eq, Nat.succ_ne_zero, not_false_eq_true, decide_true, Bool.true_and, List.isPrefixOf, Bool.and_true, Bool.not_eq_false',
        Bool.and_eq_true, beq_iff_eq, reduceCtorEq, false_or, List.cons.injEq]
      exact ⟨fun h => ⟨l, h.1.symm, h.2.symm, rfl⟩, fun ⟨_, h1, h2, _⟩ => ⟨h1.symm, h2.symm⟩⟩
  unfold textKind
  rw [hs]
  constructor
  · intro h
    split at h
    · cases h
    · split at h
      · next hf =>
        simp only [Except.error.injEq] at h
        refine ⟨h.symm, fun l hl => (hp l).1 ?_⟩
        have := List.filter_eq_nil_iff.1 hf l hl
        simpa using this
      · split at h
        · cases h
        · split at h <;> cases h
  · rintro ⟨rfl, h⟩
    have hf : ls.filter (fun l => decide (l.length ≠ 0) && !([47, 47].isPrefixOf l)) = [] := by
      refine List.filter_eq_nil_iff.2 fun l hl => ?_
      rw [(hp l).2 (h l hl)]
      simp
    have h1 : s ≠ stdinText := by
      rintro rfl
      have e : splitlines stdinText = [stdinText] := by decide
      rw [e] at hs
      subst hs
      rcases h stdinText List.mem_cons_self with h | ⟨l', h⟩
      · cases h
      · simp [stdinText] at h
    rw [if_neg h1, hf]

end

/-! ## The network -/

/-- The map that is passed to `read_inds`. -/
def rowsMap (rows : List (ℕ × List (List ℕ))) (n : ℕ) : List (ℕ × ℕ × List (List ℕ)) := (rows.zipIdx n).map fun r => (r.2, r.1.1, r.1.2)

theorem rowsMap_cons (r : ℕ × List (List ℕ)) (rows : List (ℕ × List (List ℕ))) (n : ℕ) :
    rowsMap (r :: rows) n = (n, r.1, r.2) :: rowsMap rows (n + 1) := by
  simp [rowsMap, List.zipIdx_cons]

theorem mem_rowsMap {rows : List (ℕ × List (List ℕ))} {n k d : ℕ} {ts : List (List ℕ)} :
    (k, d, ts) ∈ rowsMap rows n ↔ n ≤ k ∧ rows[k - n]? = some (d, ts) := by
  simp only [rowsMap, List.mem_map, Prod.mk.injEq]
  constructor
  · rintro ⟨⟨⟨d', ts'⟩, k'⟩, h, rfl, rfl, rfl⟩
    exact List.mem_zipIdx_iff_le_and_getElem?_sub.1 h
  · intro h
    exact ⟨((d, ts), k), List.mem_zipIdx_iff_le_and_getElem?_sub.2 h, rfl, rfl, rfl⟩

theorem count_beq (l : List (List ℕ)) (t : List ℕ) : @List.count _ instBEqOfDecidableEq t l = l.count t := by
  congr 1
  exact lawful_beq_subsingleton _ _

theorem count_listed (rows : List (ℕ × List (List ℕ))) (t : List ℕ) (n k : ℕ) :
    (listed (rowsMap rows n) t).count k = if n ≤ k then ((rows[k - n]?).map fun r => r.2.count t).getD 0 else 0 := by
  induction rows generalizing n with
  | nil => simp [rowsMap, listed]
  | cons r rows ih =>
    have e : listed (rowsMap (r :: rows) n) t = List.replicate (r.2.count t) n ++ listed (rowsMap rows (n + 1)) t := by
      rw [rowsMap_cons, listed, List.flatMap_cons, count_beq]
      rfl
    rw [e, List.count_append, ih, List.count_replicate]
    by_cases h1 : n = k
    · subst h1
      simp
    · by_cases h2 : n ≤ k
      · have h3 : k - n = (k - (n + 1)) + 1 := by omega
        rw [if_neg (by simpa using h1), if_pos (by omega), if_pos h2, h3, List.getElem?_cons_succ, Nat.zero_add]
      · rw [if_neg (by simpa using h1), if_neg (by omega), if_neg h2]

theorem listed_sorted (rows : List (ℕ × List (List ℕ))) (t : List ℕ) (n : ℕ) :
    (listed (rowsMap rows n) t).Pairwise (· ≤ ·) ∧ ∀ k ∈ listed (rowsMap rows n) t, n ≤ k := by
  induction rows generalizing n with
  | nil => simp [rowsMap, listed]
  | cons r rows ih =>
    have e : listed (rowsMap (r :: rows) n) t = List.replicate (r.2.count t) n ++ listed (rowsMap rows (n + 1)) t := by
      rw [rowsMap_cons, listed, List.flatMap_cons, count_beq]
      rfl
    rw [e]
    refine ⟨List.pairwise_append.2 ⟨List.pairwise_replicate.2 (Or.inr le_rfl), (ih _).1, ?_⟩, ?_⟩
    · intro a ha b hb
      rw [(List.mem_replicate.1 ha).2]
      have := (ih (n + 1)).2 b hb
      omega
    · intro k hk
      rcases List.mem_append.1 hk with hk | hk
      · rw [(List.mem_replicate.1 hk).2]
      · have := (ih (n + 1)).2 k hk
        omega

theorem mem_listed {rows : List (ℕ × List (List ℕ))} {t : List ℕ} {k : ℕ} :
    k ∈ listed (rowsMap rows 0) t ↔ ∃ d ts, rows[k]? = some (d, ts) ∧ t ∈ ts := by
  rw [← List.count_pos_iff, count_listed, if_pos (Nat.zero_le _), Nat.sub_zero]
  cases h : rows[k]? with
  | none => simp
  | some r =>
    obtain ⟨d, ts⟩ := r
    simp [List.count_pos_iff]

/-- The dimension of row `k`. -/
def rowDim (rows : List (ℕ × List (List ℕ))) (k : ℕ) : ℕ := ((rows[k]?).map Prod.fst).getD 0

theorem dget_rows (rows : List (ℕ × List (List ℕ))) (n k : ℕ) :
    dget ((rowsMap rows n).map fun e => (e.1, e.2.1)) k = if n ≤ k then (rows[k - n]?).map Prod.fst else none := by
  induction rows generalizing n with
  | nil => simp [rowsMap, dget]
  | cons r rows ih =>
    rw [rowsMap_cons, List.map_cons, dget, List.find?_cons]
    by_cases h1 : n = k
    · subst h1; simp
    · have := ih (n + 1)
      unfold dget at this
      simp only [h1, decide_false]
      rw [this]
      by_cases h2 : n ≤ k
      · have h3 : k - n = (k - (n + 1)) + 1 := by omega
        rw [if_pos (by omega), if_pos h2, h3, List.getElem?_cons_succ]
      · rw [if_neg (by omega), if_neg h2]

/-- The tensors, if all dimensions are positive. -/
theorem rowTensors_ok {dims : List (ℕ × ℕ)} {dim : ℕ → ℕ} {ts : List (List ℕ × List ℕ)} (h : ∀ e ∈ ts, ∀ x ∈ e.2, dget dims x = some (dim x) ∧ 0 < dim x) :
    rowTensors dims ts = .ok ((ts.map fun e => (⟨e.2, e.2.map dim, none⟩ : TensorRec ℕ)).map some) := by
  induction ts with
  | nil => rfl
  | cons e ts ih =>
    obtain ⟨t, xs⟩ := e
    have h0 := h (t, xs) List.mem_cons_self
    have e : mkTensor xs (.list (xs.map (rowDimVal dims))) none =
        .ok ⟨xs, xs.map dim, none⟩ := by
      rw [C45_tensor]
      refine ⟨rfl, rfl, by simp, ?_, by simp, ?_⟩
      · intro d hd
        obtain ⟨x, hx, rfl⟩ := List.mem_map.1 hd
        exact (h0 x hx).2
      · simp only [DimsArg.Describes, List.map_map]
        refine List.map_congr_left fun x hx => ?_
        rw [rowDimVal, (h0 x hx).1]
        rfl
    rw [rowTensors, e]
    simp only [ih fun e he => h e (List.mem_cons_of_mem _ he)]
    rfl

theorem rowTensors_error {dims : List (ℕ × ℕ)} {ts : List (List ℕ × List ℕ)} {e : List ℕ × List ℕ} (he : e ∈ ts) {x : ℕ} (hx : x ∈ e.2)
    (h : dget dims x = some 0) : rowTensors dims ts = .error .valueError := by
  induction ts with
  | nil => cases he
  | cons f ts ih =>
    obtain ⟨t, xs⟩ := f
    rw [rowTensors]
    cases hm : mkTensor xs (.list (xs.map (rowDimVal dims))) none with
    | error e => rw [C45_tensor_error _ _ _ _ hm]
    | ok T =>
      simp only
      rcases List.mem_cons.1 he with rfl | he
      · exfalso
        obtain ⟨h1, -, h2, h3, -, h4⟩ := (C45_tensor _ _ _ _).1 hm
        simp only [DimsArg.Describes] at h4
        obtain ⟨k, hk⟩ := List.mem_iff_getElem?.1 hx
        have := congrArg (fun l => l[k]?) h4
        simp only [List.getElem?_map, hk, Option.map_some, rowDimVal, h] at this
        cases hd : T.dims[k]? with
        | none => rw [hd] at this; cases this
        | some d =>
          rw [hd] at this
          simp only [Option.map_some, Option.some.injEq, DimVal.num.injEq] at this
          have hd0 : d = 0 := by exact_mod_cast this.symm
          have := h3 d (List.mem_of_getElem? hd)
          omega
      · rw [ih he]

/-- The tensors of the network of the rows, with their names, and its dimensions. -/
theorem loadRows_ok (rows : List (ℕ × List (List ℕ))) (outTok sparseTok : List ℕ) (hne : outTok ≠ sparseTok)
    (hr : ∀ r ∈ rows, 0 < r.1 ∧ ∃ t ∈ r.2, t ≠ outTok ∧ t ≠ sparseTok) :
    ∃ (N : NetworkRec ℕ) (ts : List (List ℕ × List ℕ)) (r : List (ℕ × ℕ) × Finset ℕ × Finset ℕ), loadRows rows outTok sparseTok = .ok N ∧
      readInds (rowsMap rows 0) outTok sparseTok = .ok (ts, r) ∧
      ts.map Prod.fst = (uniqueEverseen (rows.flatMap Prod.snd)).filter (fun t => t ≠ outTok ∧ t ≠ sparseTok) ∧
      (∀ e ∈ ts, e.2 = listed (rowsMap rows 0) e.1) ∧ N.tensors = ts.map (fun e => ⟨e.2, e.2.map (rowDim rows), none⟩) ∧
      (∀ e ∈ ts, ∀ k ∈ e.2, dget N.dims k = some (rowDim rows k)) ∧
      (∀ k, k ∈ N.output ↔ ∃ d ts, rows[k]? = some (d, ts) ∧ outTok ∈ ts) ∧ ∀ k, k ∈ N.sparse ↔ ∃ d ts, rows[k]? = some (d, ts) ∧ sparseTok ∈ ts := by
  have h0 : ¬ ∃ r ∈ rows, r.2 = [] := by
    rintro ⟨r, hr1, hr2⟩
    obtain ⟨t, ht, _⟩ := (hr r hr1).2
    rw [hr2] at ht
    cases ht
  obtain ⟨ts, out, sp, e1, e2, e3, e4, e5⟩ := C34_read_inds (rowsMap rows 0) outTok sparseTok hne
  have hfm : (rowsMap rows 0).flatMap (fun e => e.2.2) = rows.flatMap Prod.snd := by
    rw [rowsMap, List.flatMap_map]
    conv_rhs => rw [← List.zipIdx_map_fst 0 rows, List.flatMap_map]
  rw [hfm] at e2
  have hdim : ∀ k d ts', rows[k]? = some (d, ts') → dget ((rowsMap rows 0).map fun e => (e.1, e.2.1)) k = some d ∧ rowDim rows k = d ∧ 0 < d := by
    intro k d ts' h
    rw [dget_rows, if_pos (Nat.zero_le _), Nat.sub_zero, rowDim, h]
    exact ⟨rfl, rfl, (hr _ (List.mem_of_getElem? h)).1⟩
  have hT := rowTensors_ok (dims := (rowsMap rows 0).map fun e => (e.1, e.2.1)) (dim := rowDim rows) (ts := ts) (by
    intro e he x hx
    rw [e3 e.1 e.2 he, mem_listed] at hx
    obtain ⟨d, ts', h1, h2⟩ := hx
    obtain ⟨g1, g2, g3⟩ := hdim x d ts' h1
    rw [g1, g2]
    exact ⟨rfl, g3⟩)
  set Ts := ts.map fun e => (⟨e.2, e.2.map (rowDim rows), none⟩ : TensorRec ℕ) with hTs
  have hname : ∀ k d ts', rows[k]? = some (d, ts') → ∃ T ∈ Ts, k ∈ T.inds := by
    intro k d ts' h
    obtain ⟨t, ht, hto⟩ := (hr _ (List.mem_of_getElem? h)).2
    have : t ∈ ts.map Prod.fst := by
      rw [e2, List.mem_filter, mem_uniqueEverseen, List.mem_flatMap]
      exact ⟨⟨_, List.mem_of_getElem? h, ht⟩, by simpa using hto⟩
    obtain ⟨e, he, rfl⟩ := List.mem_map.1 this
    refine ⟨_, List.mem_map_of_mem he, ?_⟩
    simp only
    rw [e3 e.1 e.2 he, mem_listed]
    exact ⟨d, ts', h, ht⟩
  have hmem : ∀ (tok : List ℕ) (S : Finset ℕ), (∀ x, x ∈ S ↔ ∃ e ∈ rowsMap rows 0, e.1 = x ∧ tok ∈ e.2.2) →
      ∀ k, k ∈ (List.range rows.length).filter (· ∈ S) ↔ ∃ d ts, rows[k]? = some (d, ts) ∧ tok ∈ ts := by
    intro tok S hS k
    rw [List.mem_filter, List.mem_range, decide_eq_true_eq, hS]
    constructor
    · rintro ⟨_, ⟨k', d, ts'⟩, he, rfl, ht⟩
      have := (mem_rowsMap.1 he).2
      rw [Nat.sub_zero] at this
      exact ⟨d, ts', this, ht⟩
    · rintro ⟨d, ts', h, ht⟩
      exact ⟨(List.getElem?_eq_some_iff.1 h).1, (k, d, ts'), mem_rowsMap.2 ⟨Nat.zero_le _, by simpa using h⟩, rfl, ht⟩
  have hhas : ∀ T ∈ Ts, ∀ k d, T.Has k d → k ∈ T.inds ∧ d = rowDim rows k := by
    intro T hT k d hh
    obtain ⟨e, he, rfl⟩ := List.mem_map.1 hT
    obtain ⟨j, h1, h2⟩ := hh
    simp only [List.getElem?_map] at h1 h2
    rw [h1] at h2
    simp only [Option.map_some, Option.some.injEq] at h2
    exact ⟨List.mem_of_getElem? h1, h2.symm⟩
  obtain ⟨N, n1, n2, n3, -, n4, n5⟩ := (C45_network Ts (by
      intro T hT
      obtain ⟨e, he, rfl⟩ := List.mem_map.1 hT
      simp) (some ((List.range rows.length).filter (· ∈ out))) (some ((List.range rows.length).filter (· ∈ sp)))).1 {
    dims := by
      intro T hT T' hT' x d d' hh hh'
      rw [(hhas T hT x d hh).2, (hhas T' hT' x d' hh').2]
    hyper := by simp
    output := by
      rintro o ho x hx
      cases ho
      obtain ⟨d, ts', h, -⟩ := (hmem outTok out e4 x).1 hx
      exact hname x d ts' h
    sparse := by
      rintro o ho x hx
      cases ho
      obtain ⟨d, ts', h, -⟩ := (hmem sparseTok sp e5 x).1 hx
      exact hname x d ts' h }
  refine ⟨N, ts, _, ?_, e1, e2, fun e he => e3 e.1 e.2 he, n2, ?_, ?_, ?_⟩
  · unfold loadRows
    rw [if_neg h0]
    have : (rows.zipIdx.map fun r => (r.2, r.1.1, r.1.2)) = rowsMap rows 0 := rfl
    rw [this, e1]
    simp only [hT]
    exact n1
  · intro e he k hk
    obtain ⟨j, hj⟩ := List.mem_iff_getElem?.1 hk
    exact n5 _ (List.mem_map_of_mem he) k _ ⟨j, hj, by simp [List.getElem?_map, hj]⟩
  · intro k
    rw [n3 _ rfl, List.mem_toFinset, hmem outTok out e4 k]
  · intro k
    rw [n4, Option.getD_some, List.mem_toFinset, hmem sparseTok sp e5 k]

/-- C50: the network of the rows. If every row has a positive dimension and a name that is no token, there is one tensor for each name, in the order in which they
first appear, with the numbers of the rows that have the name, in order and as often as it is there, and with the dimensions of these rows; the output and sparse
indices are the rows with the tokens. -/
theorem C50_network (rows : List (ℕ × List (List ℕ))) (outTok sparseTok : List ℕ) (hne : outTok ≠ sparseTok)
    (hr : ∀ r ∈ rows, 0 < r.1 ∧ ∃ t ∈ r.2, t ≠ outTok ∧ t ≠ sparseTok) :
    ∃ N, loadRows rows outTok sparseTok = .ok N ∧
      List.Forall₂ (fun t T => T.shape = none ∧ T.inds.Pairwise (· ≤ ·) ∧ (∀ k ∈ T.inds, k < rows.length) ∧
          (∀ (k d : ℕ) (ts : List (List ℕ)), rows[k]? = some (d, ts) → T.inds.count k = ts.count t) ∧ T.dims.length = T.inds.length ∧
          ∀ k d, T.Has k d → ∃ ts, rows[k]? = some (d, ts))
        ((uniqueEverseen (rows.flatMap Prod.snd)).filter fun t => t ≠ outTok ∧ t ≠ sparseTok) N.tensors ∧
      (∀ k, k ∈ N.output ↔ ∃ d ts, rows[k]? = some (d, ts) ∧ outTok ∈ ts) ∧ ∀ k, k ∈ N.sparse ↔ ∃ d ts, rows[k]? = some (d, ts) ∧ sparseTok ∈ ts := by
  obtain ⟨N, ts, r, n1, -, e2, e3, n2, -, n4, n5⟩ := loadRows_ok rows outTok sparseTok hne hr
  refine ⟨N, n1, ?_, n4, n5⟩
  have hin : ∀ e ∈ ts, ∀ k ∈ e.2, ∃ d ts', rows[k]? = some (d, ts') := by
    intro e he k hk
    rw [e3 e he, mem_listed] at hk
    obtain ⟨d, ts', h, -⟩ := hk
    exact ⟨d, ts', h⟩
  rw [n2, ← e2, List.forall₂_map_left_iff, List.forall₂_map_right_iff, List.forall₂_same]
  intro e he
  have hl := e3 e he
  refine ⟨rfl, ?_, ?_, ?_, by simp, ?_⟩
  · simp only; rw [hl]; exact (listed_sorted _ _ _).1
  · intro k hk
    obtain ⟨d, ts', h⟩ := hin e he k hk
    exact (List.getElem?_eq_some_iff.1 h).1
  · intro k d ts' h
    simp only
    rw [hl, count_listed, if_pos (Nat.zero_le _), Nat.sub_zero, h]
    rfl
  · rintro k d ⟨j, h1, h2⟩
    simp only [List.getElem?_map] at h1 h2
    rw [h1] at h2
    simp only [Option.map_some, Option.some.injEq] at h2
    obtain ⟨d', ts', h⟩ := hin e he k (List.mem_of_getElem? h1)
    refine ⟨ts', ?_⟩
    rw [← h2, rowDim, h]; rfl

/-- C50: rows that are not as in `C50_network` are an error: `TypeError` for a row without names, otherwise `ValueError`. -/
theorem C50_rejects (rows : List (ℕ × List (List ℕ))) (outTok sparseTok : List ℕ) :
    ((∃ r ∈ rows, r.2 = []) → loadRows rows outTok sparseTok = .error .typeError) ∧
    ((∀ r ∈ rows, r.2 ≠ []) → (outTok = sparseTok ∨ ∃ r ∈ rows, r.1 = 0 ∨ ∀ t ∈ r.2, t = outTok ∨ t = sparseTok) →
      loadRows rows outTok sparseTok = .error .valueError) := by
  refine ⟨fun h => by unfold loadRows; rw [if_pos h], fun h0 h => ?_⟩
  unfold loadRows
  rw [if_neg (by push Not; exact h0)]
  by_cases hne : outTok = sparseTok
  · rw [hne, C34_tokens]
  obtain ⟨ts, out, sp, e1, e2, e3, e4, e5⟩ := C34_read_inds (rowsMap rows 0) outTok sparseTok hne
  have hm : (rows.zipIdx.map fun r => (r.2, r.1.1, r.1.2)) = rowsMap rows 0 := rfl
  rw [hm, e1]
  simp only
  have hfm : (rowsMap rows 0).flatMap (fun e => e.2.2) = rows.flatMap Prod.snd := by
    rw [rowsMap, List.flatMap_map]
    conv_rhs => rw [← List.zipIdx_map_fst 0 rows, List.flatMap_map]
  rw [hfm] at e2
  obtain ⟨r, hr, h⟩ := h.resolve_left hne
  obtain ⟨k, hk⟩ := List.mem_iff_getElem?.1 hr
  obtain ⟨d, ns⟩ := r
  by_cases hall : ∀ t ∈ ns, t = outTok ∨ t = sparseTok
  · -- the row has only tokens
    cases hT : rowTensors ((rowsMap rows 0).map fun e => (e.1, e.2.1)) ts with
    | error e =>
      have : ∀ ts' : List (List ℕ × List ℕ), ∀ e, rowTensors ((rowsMap rows 0).map fun e => (e.1, e.2.1)) ts' = .error e → e = .valueError := by
        intro ts'
        induction ts' with
        | nil => intro e h; cases h
        | cons f ts' ih =>
          intro e h
          rw [rowTensors] at h
          split at h
          · next hm => cases h; exact C45_tensor_error _ _ _ _ hm
          · split at h
            · next hm => cases h; exact ih _ hm
            · cases h
      rw [this ts e hT]
    | ok l =>
      simp only
      have hl : ∀ ts' : List (List ℕ × List ℕ), ∀ l, rowTensors ((rowsMap rows 0).map fun e => (e.1, e.2.1)) ts' = .ok l →
          ∃ Ts : List (TensorRec ℕ), l = Ts.map some ∧ Ts.map TensorRec.inds = ts'.map Prod.snd ∧ ∀ T ∈ Ts, T.dims.length = T.inds.length := by
        intro ts'
        induction ts' with
        | nil => intro l h; cases h; exact ⟨[], rfl, rfl, by simp⟩
        | cons f ts' ih =>
          intro l h
          rw [rowTensors] at h
          split at h
          · cases h
          · next T hm =>
            split at h
            · cases h
            · next l' hm' =>
              cases h
              obtain ⟨Ts, rfl, h2, h3⟩ := ih _ hm'
              obtain ⟨g1, -, g2, -⟩ := (C45_tensor _ _ _ _).1 hm
              refine ⟨T :: Ts, rfl, by rw [List.map_cons, List.map_cons, h2, g1], ?_⟩
              intro T' hT'
              rcases List.mem_cons.1 hT' with rfl | hT'
              · rw [g2, g1]
              · exact h3 T' hT'
      obtain ⟨Ts, rfl, hi, hlen⟩ := hl ts l hT
      refine (C45_network Ts hlen _ _).2 fun hok => ?_
      have hno : ¬ ∃ T ∈ Ts, k ∈ T.inds := by
        rintro ⟨T, hT1, hkT⟩
        have : T.inds ∈ ts.map Prod.snd := by rw [← hi]; exact List.mem_map_of_mem hT1
        obtain ⟨e, he, hee⟩ := List.mem_map.1 this
        rw [← hee, e3 e.1 e.2 he, mem_listed] at hkT
        obtain ⟨d', ts', h1, h2⟩ := hkT
        rw [hk] at h1
        cases h1
        have he1 : e.1 ∈ ts.map Prod.fst := List.mem_map_of_mem he
        rw [e2, List.mem_filter] at he1
        have := he1.2
        simp only [decide_eq_true_eq] at this
        rcases hall _ h2 with h | h
        · exact this.1 h
        · exact this.2 h
      have hmem : ∀ (tok : List ℕ) (S : Finset ℕ), (∀ x, x ∈ S ↔ ∃ e ∈ rowsMap rows 0, e.1 = x ∧ tok ∈ e.2.2) → tok ∈ ns →
          k ∈ (List.range rows.length).filter (· ∈ S) := by
        intro tok S hS ht
        rw [List.mem_filter, List.mem_range, decide_eq_true_eq, hS]
        exact ⟨(List.getElem?_eq_some_iff.1 hk).1, (k, d, ns), mem_rowsMap.2 ⟨Nat.zero_le _, by simpa using hk⟩, rfl, ht⟩
      obtain ⟨t, ht⟩ := List.exists_mem_of_ne_nil ns (h0 _ hr)
      rcases hall t ht with rfl | rfl
      · exact hno (hok.output _ rfl k (hmem _ out e4 ht))
      · exact hno (hok.sparse _ rfl k (hmem _ sp e5 ht))
  · -- dimension 0
    have hd0 : d = 0 := (h.resolve_right hall)
    subst hd0
    push Not at hall
    obtain ⟨t, ht, hto⟩ := hall
    have : t ∈ ts.map Prod.fst := by
      rw [e2, List.mem_filter, mem_uniqueEverseen, List.mem_flatMap]
      exact ⟨⟨_, hr, ht⟩, by simpa using hto⟩
    obtain ⟨e, he, rfl⟩ := List.mem_map.1 this
    have hke : k ∈ e.2 := by
      rw [e3 e.1 e.2 he, mem_listed]
      exact ⟨0, ns, hk, ht⟩
    rw [rowTensors_error he hke (by rw [dget_rows, if_pos (Nat.zero_le _), Nat.sub_zero, hk]; rfl)]

/-! ## A concrete text -/

/-- The decimal digits of ASCII. -/
def asciiDigit (c : ℕ) : Option ℕ := if 48 ≤ c ∧ c ≤ 57 then some (c - 48) else none

/-- `upper` for ASCII. -/
def asciiUpper (c : ℕ) : List ℕ := if 97 ≤ c ∧ c ≤ 122 then [c - 32] else [c]

theorem asciiDigit_ok : DigitsOk asciiDigit := by
  refine ⟨by decide, fun c hc => ?_, by decide, by decide⟩
  unfold isSpace at hc
  unfold asciiDigit
  rw [if_neg]
  simp only [decide_eq_true_eq] at hc
  omega

theorem asciiUpper_ok : UpperOk asciiDigit asciiUpper := by
  intro c hc
  have : ¬ (97 ≤ c ∧ c ≤ 122) ∧ c ≠ 79 := by
    rcases hc with hc | rfl | hc
    · unfold isSpace at hc
      simp only [decide_eq_true_eq] at hc
      omega
    · decide
    · unfold asciiDigit at hc
      split at hc
      · omega
      · cases hc
  exact ⟨c, [], by rw [asciiUpper, if_neg this.1], this.2⟩

/-- The characters of a string. -/
def codes (s : String) : List ℕ := s.toList.map Char.toNat

example : textKind asciiDigit asciiUpper (codes "# a comment\n2 A * \r\n\n  \n12 A\tB") =
    .ok (.inds [(2, [codes "A", codes "*"]), (12, [codes "A", codes "B"])]) := by decide +kernel

example : (loadRows [(2, [codes "A", codes "*"]), (12, [codes "A", codes "B"])] (codes "*") (codes "/")).toOption.map
    (fun N => (N.tensors, N.output, N.sparse)) = some ([⟨[0, 1], [2, 12], none⟩, ⟨[1], [12], none⟩], {0}, ∅) := by decide +kernel

/-- Lines that are indented are not read as data. The text of digits is read as data, even if it is the name of a file, and then rejected. -/
theorem C50_indented : textKind asciiDigit asciiUpper (codes " 2 A B") = .ok .other ∧ textKind asciiDigit asciiUpper (codes "2 A B\n # c") = .ok .other ∧
    textKind asciiDigit asciiUpper (codes "12") = .ok (.inds [(12, [])]) ∧ loadRows [(12, [])] (codes "*") (codes "/") = .error .typeError :=
  ⟨by decide +kernel, by decide +kernel, by decide +kernel, (C50_rejects _ _ _).1 ⟨(12, []), List.mem_cons_self, rfl⟩⟩

end TNCO
