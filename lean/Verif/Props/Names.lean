import Verif.Model.Names
import Verif.Lemmas.Unique
import Verif.Lemmas.Linear

/-!
# C34, C35, C36, C52: names of tensors, indices and symbols
-/

namespace TNCO
variable {ι τ : Type} [DecidableEq ι] [DecidableEq τ]

/-! ## C35: symbols -/

/-- The character of `i`, without the checks. -/
def symN (i : ℕ) : ℕ := if i < 26 then 97 + i else if i < 52 then 39 + i else if 55296 ≤ i then i + 2048 else i + 140

theorem asciiLetters_get : ∀ i < 52, asciiLetters[i]? = some (symN i) := by decide

theorem getSymbol_nat (i : ℕ) : getSymbol i = if i ≤ 1112063 then .ok (symN i) else .error .valueError := by
  unfold getSymbol
  by_cases h1 : i < 52
  · rw [if_pos (by omega), if_pos (by omega)]
    unfold pyIndex
    rw [if_pos (by omega), Int.toNat_natCast, asciiLetters_get i h1]
  · rw [if_neg (by omega)]
    by_cases h2 : 55296 ≤ i
    · rw [if_pos (by omega)]
      unfold chr
      by_cases h3 : i ≤ 1112063
      · rw [if_pos (by omega), if_pos h3]
        unfold symN
        rw [if_neg (by omega), if_neg h1, if_pos h2]
        congr 1
      · rw [if_neg (by omega), if_neg h3]
    · rw [if_neg (by omega), if_pos (by omega)]
      unfold chr symN
      rw [if_pos (by omega), if_neg (by omega), if_neg h1, if_neg h2]
      congr 1

theorem symN_inj {i j : ℕ} (h : symN i = symN j) : i = j := by
  unfold symN at h
  split_ifs at h <;> omega

theorem symN_range (i : ℕ) : (65 ≤ symN i ∧ symN i ≤ 90) ∨ (97 ≤ symN i ∧ symN i ≤ 122) ∨ 192 ≤ symN i := by
  unfold symN
  split_ifs <;> omega

/-- C35: different natural numbers get different characters. -/
theorem C35_injective (i j c : ℕ) (hi : getSymbol i = .ok c) (hj : getSymbol j = .ok c) : i = j := by
  rw [getSymbol_nat] at hi hj
  split at hi
  · split at hj
    · simp only [Except.ok.injEq] at hi hj
      exact symN_inj (hi.trans hj.symm)
    · simp at hj
  · simp at hi

/-- C35: symbols are ASCII letters or characters from 192 on; none has a meaning in einsum notation
(`,`, `-`, `>`, `.` and space are 44, 45, 62, 46 and 32). -/
theorem C35_no_syntax (i c : ℕ) (hi : getSymbol i = .ok c) :
    ((65 ≤ c ∧ c ≤ 90) ∨ (97 ≤ c ∧ c ≤ 122) ∨ 192 ≤ c) ∧ c ≠ 44 ∧ c ≠ 45 ∧ c ≠ 62 ∧ c ≠ 46 ∧ c ≠ 32 := by
  rw [getSymbol_nat] at hi
  split at hi
  · simp only [Except.ok.injEq] at hi
    have := symN_range i
    omega
  · simp at hi

/-- C35: every natural number below `0x110000 - 2048` has a symbol. -/
theorem C35_defined (i : ℕ) : (∃ c, getSymbol i = .ok c) ↔ i ≤ 1112063 := by
  rw [getSymbol_nat]
  split <;> simp_all

/-- C35: exactly the numbers from 55156 to 55295 get a surrogate. -/
theorem C35_surrogates_partial (i c : ℕ) (hi : getSymbol i = .ok c) :
    (0xD800 ≤ c ∧ c ≤ 0xDFFF) ↔ 55156 ≤ i ∧ i ≤ 55295 := by
  rw [getSymbol_nat] at hi
  split at hi
  · simp only [Except.ok.injEq] at hi
    rw [← hi]
    unfold symN
    split_ifs <;> omega
  · simp at hi

/-- C35 is violated: some symbols are surrogates, and negative numbers wrap around. -/
theorem C35_violated : getSymbol 55156 = .ok 0xD800 ∧ getSymbol (-1) = getSymbol 51 := by decide +kernel

example : getSymbol 0 = .ok 97 ∧ getSymbol 51 = .ok 90 ∧ getSymbol 52 = .ok 192 ∧ getSymbol 55296 = .ok 0xE000 := by decide +kernel

theorem joinWith_inj {sep : ℕ} {l m : List (List ℕ)} (hl : l ≠ []) (hm : m ≠ []) (h1 : ∀ a ∈ l, sep ∉ a) (h2 : ∀ a ∈ m, sep ∉ a)
    (h : joinWith sep l = joinWith sep m) : l = m := by
  have key : ∀ {a b c d : List ℕ}, sep ∉ a → sep ∉ b → a ++ sep :: c = b ++ sep :: d → a = b ∧ c = d := by
    intro a b c d ha hb hab
    induction a generalizing b with
    | nil =>
      cases b with
      | nil => simpa using hab
      | cons y b => simp only [List.nil_append, List.cons_append, List.cons.injEq] at hab; simp [hab.1] at hb
    | cons x a ih =>
      cases b with
      | nil => simp only [List.nil_append, List.cons_append, List.cons.injEq] at hab; simp [hab.1] at ha
      | cons y b =>
        simp only [List.cons_append, List.cons.injEq] at hab
        obtain ⟨e1, e2⟩ := ih (fun h => ha (by simp [h])) (fun h => hb (by simp [h])) hab.2
        exact ⟨by rw [hab.1, e1], e2⟩
  have hmem : ∀ {a b : List ℕ} {l : List (List ℕ)}, sep ∈ joinWith sep (a :: b :: l) := by
    intro a b l; simp [joinWith]
  induction l generalizing m with
  | nil => exact absurd rfl hl
  | cons a l ih =>
    cases m with
    | nil => exact absurd rfl hm
    | cons a' m =>
      cases l with
      | nil =>
        cases m with
        | nil => simpa [joinWith] using h
        | cons b' m =>
          exfalso
          have := hmem (a := a') (b := b') (l := m)
          rw [← h] at this
          exact h1 a (by simp) this
      | cons b l =>
        cases m with
        | nil =>
          exfalso
          have := hmem (a := a) (b := b) (l := l)
          rw [h] at this
          exact h2 a' (by simp) this
        | cons b' m =>
          simp only [joinWith] at h
          obtain ⟨e1, e2⟩ := key (h1 a (by simp)) (h2 a' (by simp)) h
          have := ih (by simp) (m := b' :: m) (by simp) (fun x hx => h1 x (by simp [List.mem_cons.1 hx]))
            (fun x hx => h2 x (by simp [List.mem_cons.1 hx])) e2
          rw [e1, this]

theorem joinWith_notMem {sep c : ℕ} (hc : c ≠ sep) {l : List (List ℕ)} (h : ∀ a ∈ l, c ∉ a) : c ∉ joinWith sep l := by
  induction l with
  | nil => simp [joinWith]
  | cons a l ih =>
    cases l with
    | nil => simpa [joinWith] using h
    | cons b l =>
      simp only [joinWith, List.mem_append, List.mem_cons, not_or]
      exact ⟨h a (by simp), hc, ih fun x hx => h x (by simp [List.mem_cons.1 hx])⟩

theorem mapM_symbols {n : ℕ} {syms : List ℕ} (h : ((List.range n).mapM fun i : ℕ => getSymbol i) = .ok syms) :
    syms = (List.range n).map symN := by
  have : ∀ (l syms : List ℕ), (l.mapM fun i : ℕ => getSymbol i) = .ok syms → syms = l.map symN := by
    intro l
    induction l with
    | nil => intro syms h; simp only [List.mapM_nil] at h; exact (Except.ok.inj h).symm
    | cons i l ih =>
      intro syms h
      rw [List.mapM_cons, getSymbol_nat] at h
      split at h
      · cases hm : (l.mapM fun i : ℕ => getSymbol i) with
        | error e => rw [hm] at h; exact absurd h (by intro h; cases h)
        | ok t =>
          rw [hm] at h
          have : syms = symN i :: t := (Except.ok.inj h).symm
          rw [this, ih t hm]; rfl
      · exact absurd h (by intro h; cases h)
  exact this _ _ h

/-- What the subscripts are. -/
theorem einsumSubscripts_eq {tsInds : List (List ι)} {output : List ι} {s : List ℕ} (h : einsumSubscripts tsInds output = .ok s) :
    let sym := fun x => symN ((uniqueEverseen (tsInds.flatten ++ output)).idxOf x)
    s = joinWith 44 (tsInds.map fun xs => xs.map sym) ++ [45, 62] ++ output.map sym := by
  intro sym
  unfold einsumSubscripts at h
  simp only at h
  set order := uniqueEverseen (tsInds.flatten ++ output) with ho
  cases hm : ((List.range order.length).mapM fun i : ℕ => getSymbol i) with
  | error e => rw [hm] at h; simp at h
  | ok syms =>
    rw [hm] at h
    simp only [Except.ok.injEq] at h
    have hs := mapM_symbols hm
    have hg : ∀ x ∈ tsInds.flatten ++ output, syms.getD (order.idxOf x) 0 = sym x := by
      intro x hx
      have hlt : order.idxOf x < order.length := List.idxOf_lt_length_of_mem (mem_uniqueEverseen.2 hx)
      rw [hs, List.getD_eq_getElem _ _ (by simpa using hlt), List.getElem_map, List.getElem_range]
    rw [← h]
    congr 1
    · congr 2
      refine List.map_congr_left fun xs hxs => List.map_congr_left fun x hx => hg x ?_
      exact List.mem_append_left _ (List.mem_flatten.2 ⟨xs, hxs, hx⟩)
    · exact List.map_congr_left fun x hx => hg x (List.mem_append_right _ hx)

/-- C35: subscripts are given exactly if the network has at most `0x110000 - 2048` indices. -/
theorem C35_total (tsInds : List (List ι)) (output : List ι) :
    (∃ s, einsumSubscripts tsInds output = .ok s) ↔ (uniqueEverseen (tsInds.flatten ++ output)).length ≤ 1112064 := by
  unfold einsumSubscripts
  simp only
  set n := (uniqueEverseen (tsInds.flatten ++ output)).length
  constructor
  · rintro ⟨s, h⟩
    by_contra hn
    cases hm : ((List.range n).mapM fun i : ℕ => getSymbol i) with
    | error e => rw [hm] at h; simp at h
    | ok syms =>
      have : ∀ (l syms : List ℕ), (l.mapM fun i : ℕ => getSymbol i) = .ok syms → ∀ i ∈ l, i ≤ 1112063 := by
        intro l
        induction l with
        | nil => intro _ _ i hi; simp at hi
        | cons j l ih =>
          intro syms h i hi
          rw [List.mapM_cons, getSymbol_nat] at h
          split at h
          · rename_i hj
            cases hm : (l.mapM fun i : ℕ => getSymbol i) with
            | error e => rw [hm] at h; exact absurd h (by intro h; cases h)
            | ok t =>
              rcases List.mem_cons.1 hi with rfl | hi
              · exact hj
              · exact ih t hm i hi
          · exact absurd h (by intro h; cases h)
      have := this _ _ hm (n - 1) (List.mem_range.2 (by omega))
      omega
  · intro hn
    have : ∀ l : List ℕ, (∀ i ∈ l, i ≤ 1112063) → (l.mapM fun i : ℕ => getSymbol i) = .ok (l.map symN) := by
      intro l
      induction l with
      | nil => intro _; rfl
      | cons j l ih =>
        intro h
        rw [List.mapM_cons, getSymbol_nat, if_pos (h j (by simp)), ih fun i hi => h i (by simp [hi])]
        rfl
    rw [this _ fun i hi => by have := List.mem_range.1 hi; omega]
    exact ⟨_, rfl⟩

/-- Lists with equal numbers differ by a renaming. -/
theorem renaming_map {f f' : ι → ℕ} {ρ : ι → ι} {xs xs' : List ι} (h : xs.map f = xs'.map f')
    (hρ : ∀ x x', x' ∈ xs' → f x = f' x' → ρ x = x') : xs' = xs.map ρ := by
  induction xs generalizing xs' with
  | nil => cases xs' with
    | nil => rfl
    | cons a l => simp at h
  | cons x xs ih =>
    cases xs' with
    | nil => simp at h
    | cons x' xs' =>
      simp only [List.map_cons, List.cons.injEq] at h ⊢
      exact ⟨(hρ x x' (by simp) h.1).symm, ih h.2 fun y y' hy => hρ y y' (by simp [hy])⟩

/-- C35: networks with the same subscripts are equal up to renaming the indices (if they have a tensor at all). -/
theorem C35_decode (tsInds tsInds' : List (List ι)) (output output' : List ι) (s : List ℕ) (hne : tsInds ≠ []) (hne' : tsInds' ≠ [])
    (h : einsumSubscripts tsInds output = .ok s) (h' : einsumSubscripts tsInds' output' = .ok s) :
    ∃ ρ : ι → ι, tsInds' = tsInds.map (fun xs => xs.map ρ) ∧ output' = output.map ρ ∧
      ∀ x ∈ tsInds.flatten ++ output, ∀ y ∈ tsInds.flatten ++ output, ρ x = ρ y → x = y := by
  have e := einsumSubscripts_eq h
  have e' := einsumSubscripts_eq h'
  simp only at e e'
  set order := uniqueEverseen (tsInds.flatten ++ output) with hord
  set order' := uniqueEverseen (tsInds'.flatten ++ output') with hord'
  have nosyn : ∀ (c : ℕ), c = 44 ∨ c = 45 → ∀ (g : ι → ℕ) (l : List ι), c ∉ l.map fun x => symN (g x) := by
    intro c hc g l hm
    obtain ⟨x, -, hx⟩ := List.mem_map.1 hm
    have := symN_range (g x)
    omega
  have split : ∀ {a b c d : List ℕ}, 45 ∉ a → 45 ∉ b → a ++ [45, 62] ++ c = b ++ [45, 62] ++ d → a = b ∧ c = d := by
    intro a b c d ha hb hab
    induction a generalizing b with
    | nil =>
      cases b with
      | nil => simpa using hab
      | cons y b => simp only [List.nil_append, List.cons_append, List.cons.injEq] at hab; simp [hab.1] at hb
    | cons x a ih =>
      cases b with
      | nil => simp only [List.nil_append, List.cons_append, List.cons.injEq] at hab; simp [hab.1] at ha
      | cons y b =>
        simp only [List.cons_append, List.cons.injEq] at hab
        obtain ⟨e1, e2⟩ := ih (fun h => ha (by simp [h])) (fun h => hb (by simp [h])) hab.2
        exact ⟨by rw [hab.1, e1], e2⟩
  rw [e] at e'
  obtain ⟨s1, s2⟩ := split
    (joinWith_notMem (by decide) fun a ha => by
      obtain ⟨xs, -, rfl⟩ := List.mem_map.1 ha
      exact nosyn 45 (Or.inr rfl) _ xs)
    (joinWith_notMem (by decide) fun a ha => by
      obtain ⟨xs, -, rfl⟩ := List.mem_map.1 ha
      exact nosyn 45 (Or.inr rfl) _ xs) e'
  have s3 := joinWith_inj (by simpa using hne) (by simpa using hne')
    (fun a ha => by
      obtain ⟨xs, -, rfl⟩ := List.mem_map.1 ha
      exact nosyn 44 (Or.inl rfl) _ xs)
    (fun a ha => by
      obtain ⟨xs, -, rfl⟩ := List.mem_map.1 ha
      exact nosyn 44 (Or.inl rfl) _ xs) s1
  have strip : ∀ {l l' : List ι}, (l.map fun x => symN (order.idxOf x)) = (l'.map fun x => symN (order'.idxOf x)) →
      l.map (fun x => order.idxOf x) = l'.map fun x => order'.idxOf x := by
    intro l l' hl
    have hl2 : (l.map fun x => order.idxOf x).map symN = (l'.map fun x => order'.idxOf x).map symN := by
      rw [List.map_map, List.map_map]; exact hl
    exact (List.map_injective_iff.2 fun i j => symN_inj) hl2
  set ρ : ι → ι := fun x => order'.getD (order.idxOf x) x with hρ
  have hρ' : ∀ x x', x' ∈ tsInds'.flatten ++ output' → order.idxOf x = order'.idxOf x' → ρ x = x' := by
    intro x x' hx' hi
    have hlt : order'.idxOf x' < order'.length := List.idxOf_lt_length_of_mem (mem_uniqueEverseen.2 hx')
    rw [hρ]
    simp only
    rw [hi, List.getD_eq_getElem _ _ hlt]
    exact List.getElem_idxOf hlt
  have o2 : output' = output.map ρ :=
    renaming_map (strip s2) fun x x' hx' hi => hρ' x x' (List.mem_append_right _ hx') hi
  have hts : ∀ (l l' : List (List ι)), (∀ xs ∈ l', xs ∈ tsInds') →
      (l.map fun xs => xs.map fun x => symN (order.idxOf x)) = (l'.map fun xs => xs.map fun x => symN (order'.idxOf x)) →
      l' = l.map fun xs => xs.map ρ := by
    intro l
    induction l with
    | nil =>
      intro l' _ hl
      cases l' with
      | nil => rfl
      | cons a l => simp at hl
    | cons xs l ih =>
      intro l' hm hl
      cases l' with
      | nil => simp at hl
      | cons xs' l' =>
        simp only [List.map_cons, List.cons.injEq] at hl ⊢
        refine ⟨renaming_map (strip hl.1) fun x x' hx' hi => hρ' x x' ?_ hi, ih l' (fun a ha => hm a (by simp [ha])) hl.2⟩
        exact List.mem_append_left _ (List.mem_flatten.2 ⟨xs', hm xs' (by simp), hx'⟩)
  have o1 := hts tsInds tsInds' (fun _ h => h) s3
  refine ⟨ρ, o1, o2, ?_⟩
  have hlen : ∀ x ∈ tsInds.flatten ++ output, ∃ x' ∈ tsInds'.flatten ++ output', order'.idxOf x' = order.idxOf x ∧ ρ x = x' := by
    intro x hx
    have hmem : ρ x ∈ tsInds'.flatten ++ output' ∧ ∃ y ∈ tsInds'.flatten ++ output', order'.idxOf y = order.idxOf x := by
      rcases List.mem_append.1 hx with h1 | h1
      · obtain ⟨xs, hxs, h2⟩ := List.mem_flatten.1 h1
        obtain ⟨i, hi, rfl⟩ := List.getElem_of_mem hxs
        have hl : tsInds'.length = tsInds.length := by rw [o1]; simp
        have hi' : i < tsInds'.length := by omega
        have e3 : (tsInds[i].map fun x => symN (order.idxOf x)) = (tsInds'[i].map fun x => symN (order'.idxOf x)) := by
          have := congrArg (fun l => l[i]?) s3
          simpa [hi, hi'] using this
        have e4 := strip e3
        have e5 : order.idxOf x ∈ tsInds'[i].map fun x => order'.idxOf x := by rw [← e4]; exact List.mem_map.2 ⟨x, h2, rfl⟩
        obtain ⟨y, hy, hy2⟩ := List.mem_map.1 e5
        have hyf : y ∈ tsInds'.flatten ++ output' := List.mem_append_left _ (List.mem_flatten.2 ⟨_, List.getElem_mem _, hy⟩)
        exact ⟨by rw [hρ' x y hyf hy2.symm]; exact hyf, y, hyf, hy2⟩
      · have e4 := strip s2
        have e5 : order.idxOf x ∈ output'.map fun x => order'.idxOf x := by rw [← e4]; exact List.mem_map.2 ⟨x, h1, rfl⟩
        obtain ⟨y, hy, hy2⟩ := List.mem_map.1 e5
        have hyf : y ∈ tsInds'.flatten ++ output' := List.mem_append_right _ hy
        exact ⟨by rw [hρ' x y hyf hy2.symm]; exact hyf, y, hyf, hy2⟩
    obtain ⟨-, y, hy, hy2⟩ := hmem
    exact ⟨y, hy, hy2, hρ' x y hy hy2.symm⟩
  intro x hx y hy hxy
  obtain ⟨x', -, hx2, hx3⟩ := hlen x hx
  obtain ⟨y', -, hy2, hy3⟩ := hlen y hy
  by_contra hne
  exact Linear.idxOf_ne (mem_uniqueEverseen.2 hx) (mem_uniqueEverseen.2 hy) hne (by rw [← hx2, ← hy2, ← hx3, ← hy3, hxy])

/-- C35: no tensor and one tensor without indices get the same subscripts. -/
theorem C35_empty : einsumSubscripts ([] : List (List ℕ)) [] = .ok [45, 62] ∧ einsumSubscripts ([[]] : List (List ℕ)) [] = .ok [45, 62] :=
  ⟨rfl, rfl⟩

/-- `ab,bc->ac` -/
example : einsumSubscripts [[5, 7], [7, 2]] [5, 2] = .ok [97, 98, 44, 98, 99, 45, 62, 97, 99] := by decide +kernel

/-! ## C52: subscripts of two tensors -/

theorem mapM_isSome_iff {α β : Type} {f : α → Option β} {l : List α} : (l.mapM f).isSome ↔ ∀ x ∈ l, (f x).isSome := by
  induction l with
  | nil => simp
  | cons a l ih =>
    rw [List.mapM_cons]
    cases ha : f a with
    | none => simp [ha]
    | some b =>
      cases hl : l.mapM f with
      | none => rw [hl] at ih; simp [ha] at ih ⊢; exact ih
      | some t => rw [hl] at ih; simp [ha] at ih ⊢; exact ih

theorem mapM_letters {f : ι → ℕ} {l : List ι} (h : ∀ x ∈ l, f x < 52) :
    (l.mapM fun x => asciiLetters[f x]?) = some (l.map fun x => symN (f x)) := by
  induction l with
  | nil => rfl
  | cons a l ih =>
    rw [List.mapM_cons, asciiLetters_get _ (h a (by simp)), ih fun x hx => h x (by simp [hx])]
    rfl

/-- C52: up to 52 different indices every index gets its own letter; with more the function raises an exception. -/
theorem C52_pair_subscripts (xs ys zs : List ι) :
    ((uniqueEverseen (xs ++ ys ++ zs)).length ≤ 52 → ∃ ρ : ι → ℕ,
      pairSubscripts xs ys zs = .ok (xs.map ρ ++ [44] ++ ys.map ρ ++ [45, 62] ++ zs.map ρ) ∧
      (∀ x ∈ xs ++ ys ++ zs, (65 ≤ ρ x ∧ ρ x ≤ 90) ∨ (97 ≤ ρ x ∧ ρ x ≤ 122)) ∧
      ∀ x ∈ xs ++ ys ++ zs, ∀ y ∈ xs ++ ys ++ zs, ρ x = ρ y → x = y) ∧
    (52 < (uniqueEverseen (xs ++ ys ++ zs)).length → pairSubscripts xs ys zs = .error .typeError) := by
  set order := uniqueEverseen (xs ++ ys ++ zs) with ho
  have hmem : ∀ x ∈ xs ++ ys ++ zs, order.idxOf x < order.length := fun x hx =>
    List.idxOf_lt_length_of_mem (mem_uniqueEverseen.2 hx)
  constructor
  · intro hl
    refine ⟨fun x => symN (order.idxOf x), ?_, ?_, ?_⟩
    · unfold pairSubscripts
      simp only
      rw [← ho, mapM_letters fun x hx => (hmem x (by simp [hx])).trans_le hl, mapM_letters fun x hx => (hmem x (by simp [hx])).trans_le hl,
        mapM_letters fun x hx => (hmem x (by simp [hx])).trans_le hl]
    · intro x hx
      have := (hmem x hx).trans_le hl
      simp only
      unfold symN
      split_ifs <;> omega
    · intro x hx y hy h
      by_contra hne
      exact Linear.idxOf_ne (mem_uniqueEverseen.2 hx) (mem_uniqueEverseen.2 hy) hne (symN_inj h)
  · intro hl
    have hx52 : order[52] ∈ xs ++ ys ++ zs := mem_uniqueEverseen.1 (List.getElem_mem _)
    have hi : order.idxOf order[52] = 52 := (uniqueEverseen_nodup _).idxOf_getElem 52 hl
    have hnone : asciiLetters[order.idxOf order[52]]? = none := by rw [hi]; decide
    unfold pairSubscripts
    simp only
    rw [← ho]
    have hno : ∀ l : List ι, order[52] ∈ l → (l.mapM fun x => asciiLetters[order.idxOf x]?) = none := by
      intro l hl'
      rw [← Option.not_isSome_iff_eq_none, mapM_isSome_iff]
      intro hall
      have := hall _ hl'
      rw [hnone] at this
      simp at this
    rcases List.mem_append.1 hx52 with h | h
    · rcases List.mem_append.1 h with h | h
      · rw [hno xs h]
      · rw [hno ys h]
        cases (xs.mapM fun x => asciiLetters[order.idxOf x]?) <;> rfl
    · rw [hno zs h]
      cases (xs.mapM fun x => asciiLetters[order.idxOf x]?) <;> cases (ys.mapM fun x => asciiLetters[order.idxOf x]?) <;> rfl

/-- `ab,bc->ac` -/
example : pairSubscripts [5, 7] [7, 2] [5, 2] = .ok [97, 98, 44, 98, 99, 45, 62, 97, 99] := by decide +kernel

/-! ## C36: the name of the new index -/

variable {ν : Type} [DecidableEq ν]

theorem svdDraw_spec {draw : ℕ → ν} {inds : List ν} {fuel k : ℕ} {a : ν} (h : svdDraw draw inds fuel k = some a) : a ∉ inds := by
  induction fuel generalizing k with
  | zero => simp [svdDraw] at h
  | succ fuel ih =>
    unfold svdDraw at h
    split at h
    · exact ih h
    · rename_i hk; simp only [Option.some.injEq] at h; rw [← h]; exact hk

/-- C36: the name returned is never an index of the tensor. -/
theorem C36_fresh (name : Option ν) (seeded : Bool) (draw : ℕ → ν) (inds : List ν) (fuel : ℕ) (a : ν)
    (h : svdName name seeded draw inds fuel = some (.ok a)) : a ∉ inds := by
  unfold svdName at h
  cases name with
  | some b =>
    simp only at h
    split at h
    · simp at h
    · rename_i hb; simp only [Option.some.injEq, Except.ok.injEq] at h; rw [← h]; exact hb
  | none =>
    simp only [Option.map_eq_some_iff] at h
    obtain ⟨b, h1, h2⟩ := h
    rw [← Except.ok.inj h2]
    exact svdDraw_spec h1

/-- C36: a given name is used, unless it is an index of the tensor. -/
theorem C36_given (a : ν) (seeded : Bool) (draw : ℕ → ν) (inds : List ν) (fuel : ℕ) :
    svdName (some a) seeded draw inds fuel = if a ∈ inds then some (.error .valueError) else some (.ok a) := rfl

theorem svdDraw_ends {draw : ℕ → ν} {inds : List ν} {j : ℕ} (hj : draw j ∉ inds) (k : ℕ) (hk : k ≤ j) (fuel : ℕ) (hf : j - k < fuel) :
    ∃ a, svdDraw draw inds fuel k = some a := by
  induction fuel generalizing k with
  | zero => omega
  | succ fuel ih =>
    unfold svdDraw
    split
    · rename_i hm
      have : k ≠ j := fun e => hj (e ▸ hm)
      exact ih (k + 1) (by omega) (by omega)
    · exact ⟨_, rfl⟩

/-- C36: without a seed, the loop ends if some draw is free; with a seed, if the only name drawn is free. -/
theorem C36_terminates_partial (seeded : Bool) (draw : ℕ → ν) (inds : List ν) (j : ℕ) (hj : draw j ∉ inds) (hs : seeded = true → j = 0) :
    ∃ fuel a, svdName none seeded draw inds fuel = some (.ok a) := by
  unfold svdName
  simp only
  cases seeded with
  | false =>
    obtain ⟨a, ha⟩ := svdDraw_ends hj 0 (by omega) (j + 1) (by omega)
    exact ⟨j + 1, a, by simp only [Bool.false_eq_true, if_false, ha, Option.map_some]⟩
  | true =>
    rw [hs rfl] at hj
    exact ⟨1, draw 0, by simp [svdDraw, hj]⟩

/-- C36 is violated: with a seed, a name which is already an index makes the loop run forever. -/
theorem C36_violated (draw : ℕ → ν) (inds : List ν) (h : draw 0 ∈ inds) (fuel : ℕ) : svdName none true draw inds fuel = none := by
  unfold svdName
  simp only [if_true, Option.map_eq_none_iff]
  have : ∀ k, svdDraw (fun _ => draw 0) inds fuel k = none := by
    induction fuel with
    | zero => intro k; rfl
    | succ fuel ih => intro k; unfold svdDraw; rw [if_pos h]; exact ih _
  exact this 0

example : svdName none true (fun k => k + 3) [3, 4] 1000 = none ∧ svdName none false (fun k => k + 3) [3, 4] 1000 = some (.ok 5) := by
  decide +kernel

/-! ## C34: reading the index map -/

/-- The indices listed under a name. -/
def listed (indsMap : List (ι × ℕ × List τ)) (t : τ) : List ι := indsMap.flatMap fun e => List.replicate (e.2.2.count t) e.1

theorem lookupName_none {m : List (τ × List ι)} {t : τ} : lookupName m t = none ↔ t ∉ m.map Prod.fst := by
  unfold lookupName
  rw [Option.map_eq_none_iff, List.find?_eq_none]
  simp only [decide_eq_true_eq, List.mem_map, not_exists, not_and]

theorem lookupName_cons (e : τ × List ι) (m : List (τ × List ι)) (t : τ) :
    lookupName (e :: m) t = if e.1 = t then some e.2 else lookupName m t := by
  unfold lookupName
  rw [List.find?_cons]
  by_cases h : e.1 = t <;> simp [h]

theorem lookupName_append {m m' : List (τ × List ι)} {t : τ} :
    lookupName (m ++ m') t = (lookupName m t).or (lookupName m' t) := by
  induction m with
  | nil => rfl
  | cons e m ih => rw [List.cons_append, lookupName_cons, lookupName_cons, ih]; split <;> rfl

theorem lookupName_map {m : List (τ × List ι)} (f : τ × List ι → List ι) (t : τ) :
    lookupName (m.map fun e => (e.1, f e)) t = (m.find? fun e => e.1 = t).map f := by
  induction m with
  | nil => rfl
  | cons e m ih => rw [List.map_cons, lookupName_cons, ih, List.find?_cons]; by_cases h : e.1 = t <;> simp [h]

theorem pushName_lookup (m : List (τ × List ι)) (t : τ) (i : ι) (t' : τ) :
    lookupName (pushName m t i) t' = if t' = t then some ((lookupName m t).getD [] ++ [i]) else lookupName m t' := by
  unfold pushName
  by_cases ht : t ∈ m.map Prod.fst
  · rw [if_pos ht]
    have e : (m.map fun e => if e.1 = t then (e.1, e.2 ++ [i]) else e) = m.map fun e => (e.1, if e.1 = t then e.2 ++ [i] else e.2) := by
      refine List.map_congr_left fun e _ => ?_
      split <;> rfl
    rw [e, lookupName_map]
    have hsome : lookupName m t ≠ none := fun h => lookupName_none.1 h ht
    unfold lookupName at hsome ⊢
    by_cases htt : t' = t
    · subst htt
      rw [if_pos rfl]
      cases hf : m.find? fun e => e.1 = t' with
      | none => rw [hf] at hsome; exact absurd rfl hsome
      | some e =>
        have := List.find?_some hf
        simp only [decide_eq_true_eq] at this
        simp [this]
    · rw [if_neg htt]
      cases hf : m.find? fun e => e.1 = t' with
      | none => rfl
      | some e =>
        have := List.find?_some hf
        simp only [decide_eq_true_eq] at this
        simp [this, htt]
  · rw [if_neg ht, lookupName_append, lookupName_none.2 ht, lookupName_cons]
    by_cases htt : t' = t
    · subst htt
      rw [if_pos rfl, if_pos rfl, lookupName_none.2 ht]; rfl
    · rw [if_neg (fun h => htt h.symm), if_neg htt]
      cases lookupName m t' <;> rfl

theorem pushName_keys (m : List (τ × List ι)) (t : τ) (i : ι) :
    (pushName m t i).map Prod.fst = if t ∈ m.map Prod.fst then m.map Prod.fst else m.map Prod.fst ++ [t] := by
  unfold pushName
  split
  · rw [List.map_map]
    refine List.map_congr_left fun e _ => ?_
    simp only [Function.comp_apply]
    split <;> rfl
  · simp

theorem uniqueEverseen_snoc (l : List τ) (t : τ) :
    uniqueEverseen (l ++ [t]) = if t ∈ uniqueEverseen l then uniqueEverseen l else uniqueEverseen l ++ [t] := by
  have e : uniqueEverseen (l ++ [t]) = uniqueEverseen l ++ uniqueLoop (l ++ []) [t] := uniqueLoop_append l [t] []
  rw [e, List.append_nil]
  unfold uniqueLoop
  by_cases h : t ∈ l
  · rw [if_pos h, if_pos (mem_uniqueEverseen.2 h)]; simp [uniqueLoop]
  · rw [if_neg h, if_neg fun hh => h (mem_uniqueEverseen.1 hh)]; simp [uniqueLoop]

/-- The state after some names have been pushed. -/
def NameInv (pushed : List (τ × ι)) (m : List (τ × List ι)) : Prop :=
  m.map Prod.fst = uniqueEverseen (pushed.map Prod.fst) ∧
    ∀ t, lookupName m t = if t ∈ pushed.map Prod.fst then some ((pushed.filter fun p => p.1 = t).map Prod.snd) else none

theorem NameInv.push {pushed : List (τ × ι)} {m : List (τ × List ι)} (h : NameInv pushed m) (t : τ) (i : ι) :
    NameInv (pushed ++ [(t, i)]) (pushName m t i) := by
  constructor
  · rw [pushName_keys, h.1, List.map_append, List.map_cons, List.map_nil, uniqueEverseen_snoc]
  · intro t'
    rw [pushName_lookup]
    by_cases htt : t' = t
    · subst htt
      rw [if_pos rfl, if_pos (by simp), h.2, List.filter_append, List.map_append]
      congr 1
      split
      · simp
      · rename_i hn
        have : (pushed.filter fun p => p.1 = t') = [] := by
          rw [List.filter_eq_nil_iff]
          intro p hp
          simp only [decide_eq_true_eq]
          rintro rfl
          exact hn (List.mem_map.2 ⟨p, hp, rfl⟩)
        simp [this]
    · rw [if_neg htt, h.2, List.filter_append]
      have e1 : ([(t, i)].filter fun p : τ × ι => p.1 = t') = [] := by
        simp only [List.filter_cons, List.filter_nil]
        rw [if_neg (by simpa using fun e : t = t' => htt e.symm)]
      have e2 : (t' ∈ (pushed ++ [(t, i)]).map Prod.fst) = (t' ∈ pushed.map Prod.fst) := by
        simp [htt]
      rw [e1]
      simp only [e2, List.append_nil]

theorem NameInv.fold {pushed : List (τ × ι)} {m : List (τ × List ι)} (h : NameInv pushed m) (ts : List τ) (i : ι) :
    NameInv (pushed ++ ts.map fun t => (t, i)) (ts.foldl (fun m t => pushName m t i) m) := by
  induction ts generalizing pushed m with
  | nil => simpa using h
  | cons t ts ih =>
    have := ih (h.push t i)
    simpa using this

theorem readLoop_spec (l : List (ι × ℕ × List τ)) {pushed : List (τ × ι)} {m : List (τ × List ι)} (dims : List (ι × ℕ))
    (h : NameInv pushed m) : (readLoop l dims m).1 = dims ++ l.map (fun e => (e.1, e.2.1)) ∧
      NameInv (pushed ++ l.flatMap fun e => e.2.2.map fun t => (t, e.1)) (readLoop l dims m).2 := by
  induction l generalizing pushed m dims with
  | nil => simpa [readLoop] using h
  | cons e l ih =>
    obtain ⟨i, d, ts⟩ := e
    obtain ⟨h1, h2⟩ := ih (dims ++ [(i, d)]) (h.fold ts i)
    unfold readLoop
    constructor
    · rw [h1]; simp
    · simpa using h2

theorem listed_eq (l : List (ι × ℕ × List τ)) (t : τ) :
    ((l.flatMap fun e => e.2.2.map fun t => (t, e.1)).filter fun p => p.1 = t).map Prod.snd = listed l t := by
  unfold listed
  induction l with
  | nil => rfl
  | cons e l ih =>
    rw [List.flatMap_cons, List.flatMap_cons, List.filter_append, List.map_append, ih]
    congr 1
    induction e.2.2 with
    | nil => rfl
    | cons a ts ih2 =>
      rw [List.map_cons, List.filter_cons, List.count_cons]
      by_cases ha : a = t
      · rw [if_pos (by simpa using ha), if_pos (by simpa using ha), List.map_cons, ih2, List.replicate_succ]
      · rw [if_neg (by simpa using ha), if_neg (by simpa using ha), ih2]
        rfl

theorem lookup_filter {m : List (τ × List ι)} {t t' : τ} :
    lookupName (m.filter fun e => e.1 ≠ t) t' = if t' = t then none else lookupName m t' := by
  induction m with
  | nil => simp [lookupName]
  | cons e m ih =>
    rw [List.filter_cons]
    by_cases he : e.1 = t
    · rw [if_neg (by simpa using he), ih, lookupName_cons]
      by_cases h : t' = t
      · rw [if_pos h, if_pos h]
      · rw [if_neg h, if_neg h, if_neg (by rw [he]; exact fun e => h e.symm)]
    · rw [if_pos (by simpa using he), lookupName_cons, ih, lookupName_cons]
      by_cases h : t' = t
      · rw [if_pos h, if_pos h, if_neg (by rw [h]; exact he)]
      · rw [if_neg h, if_neg h]

/-- C34: `read_inds` lists an index under a tensor name exactly if (and as often as) the name is in the entry of the index, in
the order of the map; names are in the order in which they first appear; the tokens are not names; the dimensions are kept, and
output and sparse indices are those tagged with the tokens. -/
theorem C34_read_inds (indsMap : List (ι × ℕ × List τ)) (outTok sparseTok : τ) (hne : outTok ≠ sparseTok) :
    ∃ tensors out sparse, readInds indsMap outTok sparseTok = .ok (tensors, indsMap.map (fun e => (e.1, e.2.1)), out, sparse) ∧
      tensors.map Prod.fst = (uniqueEverseen (indsMap.flatMap fun e => e.2.2)).filter (fun t => t ≠ outTok ∧ t ≠ sparseTok) ∧
      (∀ t xs, (t, xs) ∈ tensors → xs = listed indsMap t) ∧
      (∀ x, x ∈ out ↔ ∃ e ∈ indsMap, e.1 = x ∧ outTok ∈ e.2.2) ∧
      ∀ x, x ∈ sparse ↔ ∃ e ∈ indsMap, e.1 = x ∧ sparseTok ∈ e.2.2 := by
  obtain ⟨h1, h2, h3⟩ := readLoop_spec indsMap [] (pushed := []) (m := ([] : List (τ × List ι)))
    ⟨rfl, fun t => by simp [lookupName]⟩
  rw [List.nil_append] at h1 h2 h3
  set m := (readLoop indsMap [] ([] : List (τ × List ι))).2 with hm
  have hfst : ∀ l : List (ι × ℕ × List τ), (l.flatMap fun e => e.2.2.map fun t => (t, e.1)).map Prod.fst = l.flatMap fun e => e.2.2 := by
    intro l
    induction l with
    | nil => rfl
    | cons e l ih => simp [ih, Function.comp_def]
  rw [hfst] at h2
  simp only [hfst] at h3
  have hlist : ∀ x t, x ∈ listed indsMap t ↔ ∃ e ∈ indsMap, e.1 = x ∧ t ∈ e.2.2 := by
    intro x t
    unfold listed
    simp only [List.mem_flatMap, List.mem_replicate, ne_eq, List.count_eq_zero, not_not]
    constructor
    · rintro ⟨e, he, h4, rfl⟩; exact ⟨e, he, rfl, h4⟩
    · rintro ⟨e, he, rfl, h4⟩; exact ⟨e, he, h4, rfl⟩
  have hget : ∀ t, (lookupName m t).getD [] = listed indsMap t := by
    intro t
    rw [h3]
    split
    · rw [listed_eq]; rfl
    · rename_i hn
      symm
      rw [Option.getD_none, List.eq_nil_iff_forall_not_mem]
      intro x hx
      obtain ⟨e, he, -, h4⟩ := (hlist x t).1 hx
      exact hn (List.mem_flatMap.2 ⟨e, he, h4⟩)
  have hs : lookupName (m.filter fun e => e.1 ≠ outTok) sparseTok = lookupName m sparseTok := by
    rw [lookup_filter, if_neg hne.symm]
  refine ⟨(m.filter fun e => e.1 ≠ outTok).filter fun e => e.1 ≠ sparseTok, (listed indsMap outTok).toFinset,
    (listed indsMap sparseTok).toFinset, ?_, ?_, ?_, ?_, ?_⟩
  · unfold readInds popName
    rw [if_neg hne]
    simp only
    rw [← hm, h1, hs, hget, hget]
  · rw [List.filter_filter]
    have : ∀ l : List (τ × List ι), (l.filter fun e => decide (e.1 ≠ sparseTok) && decide (e.1 ≠ outTok)).map Prod.fst =
        (l.map Prod.fst).filter fun t => t ≠ outTok ∧ t ≠ sparseTok := by
      intro l
      rw [List.filter_map]
      congr 1
      refine List.filter_congr fun e _ => ?_
      simp only [Function.comp_apply]
      by_cases ha : e.1 = sparseTok <;> by_cases hb : e.1 = outTok <;> simp [ha, hb]
    rw [this, h2]
  · intro t xs hx
    have hx' := (List.mem_filter.1 (List.mem_filter.1 hx).1).1
    have hnd : (m.map Prod.fst).Nodup := by rw [h2]; exact uniqueEverseen_nodup _
    have : lookupName m t = some xs := by
      clear hm h1 h2 h3 hget hs hx
      clear_value m
      induction m with
      | nil => simp at hx'
      | cons e m ih =>
        rw [List.map_cons, List.nodup_cons] at hnd
        rw [lookupName_cons]
        rcases List.mem_cons.1 hx' with rfl | hx'
        · rw [if_pos rfl]
        · rw [if_neg, ih hx' hnd.2]
          rintro rfl
          exact hnd.1 (List.mem_map.2 ⟨_, hx', rfl⟩)
    rw [← hget, this]; rfl
  · intro x
    rw [List.mem_toFinset, hlist]
  · intro x
    rw [List.mem_toFinset, hlist]

/-- C34: equal tokens are rejected. -/
theorem C34_tokens (indsMap : List (ι × ℕ × List τ)) (tok : τ) : readInds indsMap tok tok = .error .valueError := by
  unfold readInds
  rw [if_pos rfl]

example : readInds [("i", 2, ["A", "*"]), ("j", 3, ["B", "A"]), ("k", 4, ["/", "B"])] "*" "/" =
    .ok ([("A", ["i", "j"]), ("B", ["j", "k"])], [("i", 2), ("j", 3), ("k", 4)], {"i"}, {"k"}) := by decide +kernel

end TNCO
