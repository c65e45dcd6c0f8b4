import Verif.Model.Repr
import Verif.Props.PyNode

/-!
# Property C94: what objects show

`f` and `w` are the `repr` of floats, `shows` the `repr` of frozensets. `FloatRepr f`: what the `repr` of finite
floats is known for.
-/

namespace TNCO

variable {ι W : Type}

/-- `repr` of finite floats: different floats have different texts, of digits, point, exponent and signs, and the
text of a float is not that of an `int`. -/
structure FloatRepr (f : ℚ → List Char) : Prop where
  inj : ∀ p q, f p = f q → p = q
  chars : ∀ q, ∀ c ∈ f q, c ∈ "0123456789.e+-".toList
  point : ∀ q, '.' ∈ f q ∨ 'e' ∈ f q

/-- Two texts split by different characters (helper). -/
theorem split_unique {α : Type} (p : α → Prop) : ∀ {a a' : List α} {s s' : α} {b b' : List α}, (∀ x ∈ a, p x) → (∀ x ∈ a', p x) →
    ¬ p s → ¬ p s' → a ++ s :: b = a' ++ s' :: b' → a = a' ∧ s = s' ∧ b = b'
  | [], [], _, _, _, _, _, _, _, _, h => by
    simp only [List.nil_append, List.cons.injEq] at h
    exact ⟨rfl, h.1, h.2⟩
  | [], x :: a', _, _, _, _, _, h2, h3, _, h => by
    simp only [List.nil_append, List.cons_append, List.cons.injEq] at h
    exact absurd (h.1 ▸ h2 x (by simp)) h3
  | x :: a, [], _, _, _, _, h1, _, _, h4, h => by
    simp only [List.nil_append, List.cons_append, List.cons.injEq] at h
    exact absurd (h.1 ▸ h1 x (by simp)) h4
  | x :: a, y :: a', _, _, _, _, h1, h2, h3, h4, h => by
    simp only [List.cons_append, List.cons.injEq] at h
    obtain ⟨i1, i2, i3⟩ := split_unique p (fun z hz => h1 z (by simp [hz])) (fun z hz => h2 z (by simp [hz])) h3 h4 h.2
    exact ⟨by rw [h.1, i1], i2, i3⟩

/-- The same from the end (helper). -/
theorem last_unique {α : Type} (p : α → Prop) {a a' : List α} {s s' : α} {b b' : List α} (h1 : ∀ x ∈ b, p x) (h2 : ∀ x ∈ b', p x)
    (h3 : ¬ p s) (h4 : ¬ p s') (h : a ++ s :: b = a' ++ s' :: b') : a = a' ∧ s = s' ∧ b = b' := by
  have hr := congrArg List.reverse h
  simp only [List.reverse_append, List.reverse_cons, List.append_assoc, List.singleton_append] at hr
  obtain ⟨i1, i2, i3⟩ := split_unique p (fun x hx => h1 x (by simpa using hx)) (fun x hx => h2 x (by simpa using hx)) h3 h4 hr
  exact ⟨List.reverse_injective i3, i2, List.reverse_injective i1⟩

theorem decChars_inj {n n' : ℕ} (h : decChars n = decChars n') : n = n' := by
  rw [← decChars_value n, ← decChars_value n', h]

/-- Texts of numbers (helper). -/
theorem projsText_inj {f : ℚ → List Char} (hf : FloatRepr f) {x y : Option PyNum}
    (hx : ∀ n, x = some n → n.badProjs = false) (hy : ∀ n, y = some n → n.badProjs = false)
    (h : projsText f x = projsText f y) : x = y := by
  have hint : ∀ n : PyNum, n.badProjs = false → ∀ z, n = .int z → ∃ k : ℕ, z = .ofNat k := by
    rintro n hn z rfl
    have h1 : ¬ (z : ℚ) < 1 := of_decide_eq_false (Bool.or_eq_false_iff.1 hn).2
    have : (1 : ℤ) ≤ z := by
      by_contra hlt
      exact h1 (by exact_mod_cast not_le.1 hlt)
    exact ⟨z.toNat, (Int.toNat_of_nonneg (by omega)).symm⟩
  have hN1 : ∀ k, decChars k ≠ "None".toList := by
    intro k hk
    have h1 : 'N' ∈ decChars k := by rw [hk]; decide
    have := (decChars_digit h1).2
    revert this; decide
  have hN2 : ∀ q, f q ≠ "None".toList := by
    intro q hq
    have h1 : 'N' ∈ f q := by rw [hq]; decide
    have := hf.chars q _ h1
    revert this; decide
  have hIF : ∀ k q, decChars k ≠ f q := by
    intro k q hq
    rcases hf.point q with h1 | h1
    · rw [← hq] at h1
      have := (decChars_digit h1).1
      revert this; decide
    · rw [← hq] at h1
      have := (decChars_digit h1).2
      revert this; decide
  match x, y, hx, hy, h with
  | none, none, _, _, _ => rfl
  | none, some (.int z), _, hy, h =>
    obtain ⟨k, rfl⟩ := hint _ (hy _ rfl) z rfl
    exact absurd h.symm (hN1 k)
  | none, some (.float q), _, _, h => exact absurd h.symm (hN2 q)
  | some (.int z), none, hx, _, h =>
    obtain ⟨k, rfl⟩ := hint _ (hx _ rfl) z rfl
    exact absurd h (hN1 k)
  | some (.float q), none, _, _, h => exact absurd h (hN2 q)
  | some (.int z), some (.int z'), hx, hy, h =>
    obtain ⟨k, rfl⟩ := hint _ (hx _ rfl) z rfl
    obtain ⟨k', rfl⟩ := hint _ (hy _ rfl) z' rfl
    rw [decChars_inj (h : decChars k = decChars k')]
  | some (.int z), some (.float q), hx, _, h =>
    obtain ⟨k, rfl⟩ := hint _ (hx _ rfl) z rfl
    exact absurd h (hIF k q)
  | some (.float q), some (.int z), _, hy, h =>
    obtain ⟨k, rfl⟩ := hint _ (hy _ rfl) z rfl
    exact absurd h.symm (hIF k q)
  | some (.float q), some (.float q'), _, _, h => rw [hf.inj q q' h]

/-- No text of a number has an equals sign (helper). -/
theorem projsText_plain {f : ℚ → List Char} (hf : FloatRepr f) (x : Option PyNum) : ∀ c ∈ projsText f x, c ≠ '=' := by
  intro c hc
  match x, hc with
  | none, hc =>
    have h' : c ∈ "None".toList := hc
    have : ∀ c ∈ "None".toList, c ≠ '=' := by decide
    exact this c h'
  | some (.int (.ofNat k)), hc =>
    rintro rfl
    have := (decChars_digit (hc : '=' ∈ decChars k)).2
    revert this; decide
  | some (.int (.negSucc k)), hc =>
    rintro rfl
    rcases List.mem_cons.1 (hc : '=' ∈ '-' :: decChars (k + 1)) with h | h
    · revert h; decide
    · have := (decChars_digit h).2
      revert this; decide
  | some (.float q), hc =>
    rintro rfl
    have := hf.chars q _ hc
    revert this; decide

/-- The end of the `repr` determines `sparse_inds` and `n_projs` (helper). -/
theorem tail_unique {f : ℚ → List Char} (hf : FloatRepr f) {shows shows' : Finset ι → List Char}
    (hs : ∀ s s', shows s = shows' s' → s = s') {t t' : String} (ht : ∀ c ∈ t.toList, c ≠ ',' ∧ c ≠ ')')
    (ht' : ∀ c ∈ t'.toList, c ≠ ',' ∧ c ≠ ')') {m m' : PyCost ι}
    (hm : m.sparse = none → m.nProjs = none) (hm' : m'.sparse = none → m'.nProjs = none)
    (hp : ∀ n, m.nProjs = some n → n.badProjs = false) (hp' : ∀ n, m'.nProjs = some n → n.badProjs = false)
    (h : t.toList ++ m.tail f shows = t'.toList ++ m'.tail f shows') :
    t = t' ∧ m.sparse = m'.sparse ∧ m.nProjs = m'.nProjs := by
  have hsplit : ∀ {s s' : Char} {b b' : List Char}, ¬ (s ≠ ',' ∧ s ≠ ')') → ¬ (s' ≠ ',' ∧ s' ≠ ')') →
      t.toList ++ s :: b = t'.toList ++ s' :: b' → t = t' ∧ s = s' ∧ b = b' := by
    intro s s' b b' h1 h2 h3
    obtain ⟨i1, i2, i3⟩ := split_unique (fun c => c ≠ ',' ∧ c ≠ ')') ht ht' h1 h2 h3
    exact ⟨String.toList_injective i1, i2, i3⟩
  unfold PyCost.tail at h
  cases hsp : m.sparse with
  | none =>
    cases hsp' : m'.sparse with
    | none =>
      rw [hsp, hsp'] at h
      exact ⟨String.toList_injective (List.append_cancel_right h), rfl, (hm hsp).trans (hm' hsp').symm⟩
    | some s' =>
      rw [hsp, hsp'] at h
      have h2 : t.toList ++ ')' :: [] = t'.toList ++ ',' :: (" sparse_inds=".toList ++
        (shows' s' ++ (", n_projs=".toList ++ (projsText f m'.nProjs ++ ")".toList)))) := h
      exact absurd (hsplit (by decide) (by decide) h2).2.1 (by decide)
  | some s =>
    cases hsp' : m'.sparse with
    | none =>
      rw [hsp, hsp'] at h
      have h2 : t.toList ++ ',' :: (" sparse_inds=".toList ++
        (shows s ++ (", n_projs=".toList ++ (projsText f m.nProjs ++ ")".toList)))) = t'.toList ++ ')' :: [] := h
      exact absurd (hsplit (by decide) (by decide) h2).2.1 (by decide)
    | some s' =>
      rw [hsp, hsp'] at h
      have h2 : t.toList ++ ',' :: (" sparse_inds=".toList ++ (shows s ++ (", n_projs=".toList ++ (projsText f m.nProjs ++ ")".toList)))) =
        t'.toList ++ ',' :: (" sparse_inds=".toList ++ (shows' s' ++ (", n_projs=".toList ++ (projsText f m'.nProjs ++ ")".toList)))) := h
      obtain ⟨i1, -, i3⟩ := hsplit (by decide) (by decide) h2
      have h3 := List.append_cancel_left i3
      have e : ∀ (a b : List Char), a ++ (", n_projs=".toList ++ (b ++ ")".toList)) = (a ++ ", n_projs".toList) ++ '=' :: (b ++ ")".toList) := by
        intro a b
        rw [List.append_assoc]
        rfl
      rw [e, e] at h3
      have hpl : ∀ x : Option PyNum, ∀ c ∈ projsText f x ++ ")".toList, c ≠ '=' := by
        intro x c hc
        rcases List.mem_append.1 hc with h | h
        · exact projsText_plain hf x c h
        · have : ∀ c ∈ ")".toList, c ≠ '=' := by decide
          exact this c h
      obtain ⟨j1, -, j3⟩ := last_unique (fun c => c ≠ '=') (hpl _) (hpl _) (by simp) (by simp) h3
      refine ⟨i1, ?_, projsText_inj hf hp hp' (List.append_cancel_right j3)⟩
      rw [hs s s' (List.append_cancel_right j1)]

variable [DecidableEq ι]

/-- What the constructor has checked (helper). -/
theorem pyCost_made {t : String} {sparse : Option (List ι)} {n : Option PyNum} {m : PyCost ι} (h : PyCost.make t sparse n = .ok m) :
    m.costType = t ∧ t ∈ costTypes ∧ (m.sparse = none → m.nProjs = none) ∧ ∀ n, m.nProjs = some n → n.badProjs = false := by
  unfold PyCost.make at h
  split at h
  · cases h
  · next ht =>
    split at h
    · cases h
    · next s hs =>
      cases h
      refine ⟨rfl, not_not.1 ht, ?_, ?_⟩
      · intro h0
        simp only at h0 ⊢
        subst h0
        unfold checkSparse at hs
        split at hs
        · cases hs
        · next hb =>
          split at hs
          · cases hs
          · next hq =>
            split at hs
            · cases hs
            · have hsn : sparse = none := by
                cases sparse with
                | none => rfl
                | some l => simp at hs
              subst hsn
              cases n with
              | none => rfl
              | some k =>
                simp only [Option.isNone_none, Bool.true_and, projsTrue, bne_iff_ne, ne_eq, not_not] at hq
                simp only [Option.any_some, PyNum.badProjs, hq, Bool.not_eq_true] at hb
                simp at hb
      · intro k hk
        simp only at hk
        subst hk
        unfold checkSparse at hs
        split at hs
        · cases hs
        · next hb => simpa using hb

omit [DecidableEq ι] in
theorem costTypes_plain : ∀ t ∈ costTypes, ∀ c ∈ t.toList, c ≠ ',' ∧ c ≠ ')' := by decide

/-- C94: two cost models with the same `repr` are equal, whatever the order in which their sets were shown. -/
theorem C94_model {f : ℚ → List Char} (hf : FloatRepr f) {shows shows' : Finset ι → List Char} (hs : ∀ s s', shows s = shows' s' → s = s')
    {t t' : String} {sparse sparse' : Option (List ι)} {n n' : Option PyNum} {m m' : PyCost ι}
    (hm : PyCost.make t sparse n = .ok m) (hm' : PyCost.make t' sparse' n' = .ok m')
    (h : m.repr f shows = m'.repr f shows') : m.eq m' = true := by
  obtain ⟨a1, a2, a3, a4⟩ := pyCost_made hm
  obtain ⟨b1, b2, b3, b4⟩ := pyCost_made hm'
  unfold PyCost.repr at h
  have h1 := List.append_cancel_left (List.append_cancel_left h)
  rw [a1, b1] at h1
  obtain ⟨i1, i2, i3⟩ := tail_unique hf hs (costTypes_plain t a2) (costTypes_plain t' b2) a3 b3 a4 b4 h1
  unfold PyCost.eq
  rw [a1, b1, i1, i2, i3]
  simp

/-- C94: the same with a width limit; the texts of widths are without commas. -/
theorem C94_model_width [AddCommGroup W] [LinearOrder W] {f : ℚ → List Char} (hf : FloatRepr f) {w : W → List Char}
    (hw : ∀ x y, w x = w y → x = y) (hwc : ∀ x, ',' ∉ w x)
    {shows shows' : Finset ι → List Char} (hs : ∀ s s', shows s = shows' s' → s = s')
    {x x' : W} {wt wt' t t' : String} {sparse sparse' : Option (List ι)} {n n' : Option PyNum} {m m' : PyFwCost ι W}
    (hm : PyFwCost.make x wt t sparse n = .ok m) (hm' : PyFwCost.make x' wt' t' sparse' n' = .ok m')
    (h : m.repr f w shows = m'.repr f w shows') :
    m.maxWidth = m'.maxWidth ∧ m.widthType = m'.widthType ∧ m.toPyCost.eq m'.toPyCost = true := by
  have hmade : ∀ {x : W} {wt t : String} {sparse : Option (List ι)} {n : Option PyNum} {m : PyFwCost ι W},
      PyFwCost.make x wt t sparse n = .ok m → m.widthType ∈ widthTypes ∧ PyCost.make t sparse n = .ok m.toPyCost := by
    intro x wt t sparse n m h
    unfold PyFwCost.make at h
    split at h
    · cases h
    · split at h
      · cases h
      · next hwt =>
        split at h
        · cases h
        · next m0 h0 => cases h; exact ⟨not_not.1 hwt, h0⟩
  obtain ⟨c1, c2⟩ := hmade hm
  obtain ⟨d1, d2⟩ := hmade hm'
  obtain ⟨a1, a2, a3, a4⟩ := pyCost_made c2
  obtain ⟨b1, b2, b3, b4⟩ := pyCost_made d2
  have hwt : ∀ t ∈ widthTypes, ∀ c ∈ t.toList, c ≠ ',' := by decide
  unfold PyFwCost.repr at h
  have h1 := List.append_cancel_left (List.append_cancel_left h)
  have h2 : w m.maxWidth ++ ',' :: (" width_type=".toList ++ (m.widthType.toList ++ (", cost_type=".toList ++ (m.costType.toList ++ m.tail f shows)))) =
    w m'.maxWidth ++ ',' :: (" width_type=".toList ++ (m'.widthType.toList ++ (", cost_type=".toList ++ (m'.costType.toList ++ m'.tail f shows')))) := h1
  obtain ⟨e1, -, e3⟩ := split_unique (fun c => c ≠ ',') (fun c hc h => hwc _ (h ▸ hc)) (fun c hc h => hwc _ (h ▸ hc)) (by simp) (by simp) h2
  have h3 : m.widthType.toList ++ ',' :: (" cost_type=".toList ++ (m.costType.toList ++ m.tail f shows)) =
    m'.widthType.toList ++ ',' :: (" cost_type=".toList ++ (m'.costType.toList ++ m'.tail f shows')) := List.append_cancel_left e3
  obtain ⟨g1, -, g3⟩ := split_unique (fun c => c ≠ ',') (hwt _ c1) (hwt _ d1) (by simp) (by simp) h3
  have h4 := List.append_cancel_left g3
  rw [a1, b1] at h4
  obtain ⟨i1, i2, i3⟩ := tail_unique hf hs (costTypes_plain t a2) (costTypes_plain t' b2) a3 b3 a4 b4 h4
  refine ⟨hw _ _ e1, String.toList_injective g1, ?_⟩
  unfold PyCost.eq
  rw [a1, b1, i1, i2, i3]
  simp

omit [DecidableEq ι] in
/-- Texts made of two numbers (helper). -/
theorem two_numbers {a b : List Char} {n n' k k' : ℕ} {r r' : List Char}
    (h : a ++ (decChars n ++ (", ".toList ++ (b ++ (decChars k ++ (")".toList ++ r))))) =
      a ++ (decChars n' ++ (", ".toList ++ (b ++ (decChars k' ++ (")".toList ++ r')))))) : n = n' ∧ k = k' ∧ r = r' := by
  have hd : ∀ n, ∀ c ∈ decChars n, 48 ≤ c.toNat ∧ c.toNat < 58 := fun n c hc => decChars_digit hc
  have h1 := List.append_cancel_left h
  have h2 : decChars n ++ ',' :: (" ".toList ++ (b ++ (decChars k ++ (")".toList ++ r)))) =
    decChars n' ++ ',' :: (" ".toList ++ (b ++ (decChars k' ++ (")".toList ++ r')))) := h1
  obtain ⟨e1, -, e3⟩ := split_unique (fun c : Char => 48 ≤ c.toNat ∧ c.toNat < 58) (hd n) (hd n') (by decide) (by decide) h2
  have h3 : decChars k ++ ')' :: r = decChars k' ++ ')' :: r' := List.append_cancel_left (List.append_cancel_left e3)
  obtain ⟨g1, -, g3⟩ := split_unique (fun c : Char => 48 ≤ c.toNat ∧ c.toNat < 58) (hd k) (hd k') (by decide) (by decide) h3
  exact ⟨decChars_inj e1, decChars_inj g1, g3⟩

omit [DecidableEq ι] in
/-- C94: trees have the same `repr` exactly if they have as many nodes and as many indices. -/
theorem C94_tree (c c' : CTree) : c.repr = c'.repr ↔ c.tree.size = c'.tree.size ∧ c.nInds = c'.nInds := by
  constructor
  · intro h
    have := two_numbers (a := "ContractionTree(n_nodes=".toList) (b := "n_inds=".toList) (r := []) (r' := [])
      (n := c.tree.size) (n' := c'.tree.size) (k := c.nInds) (k' := c'.nInds) h
    exact ⟨this.1, this.2.1⟩
  · rintro ⟨h1, h2⟩
    unfold CTree.repr
    rw [h1, h2]

omit [DecidableEq ι] in
/-- C94: networks have the same `repr` exactly if they have as many tensors and as many indices. -/
theorem C94_network (n n' k k' : ℕ) : networkRepr n k = networkRepr n' k' ↔ n = n' ∧ k = k' := by
  constructor
  · intro h
    have := two_numbers (a := "TensorNetwork(n_tensors=".toList) (b := "n_inds=".toList) (r := []) (r' := [])
      (n := n) (n' := n') (k := k) (k' := k') h
    exact ⟨this.1, this.2.1⟩
  · rintro ⟨rfl, rfl⟩; rfl

omit [DecidableEq ι] in
/-- C94: optimizers have the same `repr` exactly if their trees and their cost models have. -/
theorem C94_optimizer (c c' : CTree) (m m' : List Char) : optimizerRepr c m = optimizerRepr c' m' ↔ c.repr = c'.repr ∧ m = m' := by
  constructor
  · intro h
    unfold optimizerRepr at h
    have h1 := List.append_cancel_left h
    unfold CTree.repr at h1
    simp only [List.append_assoc] at h1
    have h2 := two_numbers (a := "ContractionTree(n_nodes=".toList) (b := "n_inds=".toList) (r := ", cmodel=".toList ++ (m ++ ")".toList))
      (r' := ", cmodel=".toList ++ (m' ++ ")".toList)) (n := c.tree.size) (n' := c'.tree.size) (k := c.nInds) (k' := c'.nInds) h1
    exact ⟨(C94_tree c c').2 ⟨h2.1, h2.2.1⟩, List.append_cancel_right (List.append_cancel_left h2.2.2)⟩
  · rintro ⟨h1, h2⟩
    unfold optimizerRepr
    rw [h1, h2]

omit [DecidableEq ι] in
/-- **C94 is violated**: equal cost models show different texts, since `n_projs` may be `2` or `2.0`. -/
theorem C94_violated_equal (f : ℚ → List Char) (hf : FloatRepr f) (shows : Finset ℕ → List Char) :
    ∃ m m' : PyCost ℕ, PyCost.make "float64" (some [0]) (some (.int 2)) = .ok m ∧
      PyCost.make "float64" (some [0]) (some (.float 2)) = .ok m' ∧ m.eq m' = true ∧ m.repr f shows ≠ m'.repr f shows := by
  refine ⟨⟨"float64", some {0}, some (.int 2)⟩, ⟨"float64", some {0}, some (.float 2)⟩, rfl, rfl,
    by decide +kernel, ?_⟩
  intro h
  have h1 := List.append_cancel_left (List.append_cancel_left (List.append_cancel_left h))
  simp only [PyCost.tail] at h1
  have h2 := List.append_cancel_right (List.append_cancel_left (List.append_cancel_left (List.append_cancel_left h1)))
  have h3 := projsText_inj hf (x := some (.int 2)) (y := some (.float 2)) (by rintro _ ⟨⟩; decide +kernel) (by rintro _ ⟨⟩; decide +kernel) h2
  cases h3

omit [DecidableEq ι] in
/-- **C94 is violated**: different probabilities show the same text, since `beta` is shown with six digits. -/
theorem C94_violated_beta (t : String) : ProbCore.mh 1234567 ≠ .mh 1234568 ∧
    (ProbCore.mh 1234567).repr t = (ProbCore.mh 1234568).repr t := by
  refine ⟨fun h => absurd (ProbCore.mh.inj h) (by norm_num), ?_⟩
  have h : streamText 1234567 = streamText 1234568 := by decide +kernel
  show _ ++ ((streamText 1234567).map Char.ofNat ++ _) = _ ++ ((streamText 1234568).map Char.ofNat ++ _)
  rw [h]

omit [DecidableEq ι] in
theorem tupleTail_head {α : Type} (r : α → List Char) (l : List α) : ∃ s t, tupleTail r l = s :: t ∧ ¬ (s ≠ ',' ∧ s ≠ ')') := by
  cases l with
  | nil => exact ⟨')', [], rfl, by decide⟩
  | cons a l => exact ⟨',', _, rfl, by decide⟩

omit [DecidableEq ι] in
/-- The elements of tuples with the same text (helper). -/
theorem tupleTail_inj {α : Type} {r : α → List Char} (hr : ∀ a b, r a = r b → a = b) (hc : ∀ a, ∀ c ∈ r a, c ≠ ',' ∧ c ≠ ')') :
    ∀ {l l' : List α}, tupleTail r l = tupleTail r l' → l = l'
  | [], [], _ => rfl
  | [], _ :: _, h => absurd (List.cons.inj (h : ')' :: [] = ',' :: _)).1 (by decide)
  | _ :: _, [], h => absurd (List.cons.inj (h : ',' :: _ = ')' :: [])).1 (by decide)
  | a :: l, b :: l', h => by
    have h1 : r a ++ tupleTail r l = r b ++ tupleTail r l' := List.append_cancel_left h
    obtain ⟨s, t, e, hs⟩ := tupleTail_head r l
    obtain ⟨s', t', e', hs'⟩ := tupleTail_head r l'
    rw [e, e'] at h1
    obtain ⟨i1, i2, i3⟩ := split_unique (fun c => c ≠ ',' ∧ c ≠ ')') (hc a) (hc b) hs hs' h1
    rw [hr a b i1, tupleTail_inj hr hc (l := l) (l' := l') (by rw [e, e', i2, i3])]

omit [DecidableEq ι] in
/-- C94: ordered sets have the same `repr` exactly if they have the same elements in the same order, for elements of different texts without comma
and closing bracket. -/
theorem C94_set {α : Type} [DecidableEq α] {r : α → List Char} (hr : ∀ a b, r a = r b → a = b) (hc : ∀ a, ∀ c ∈ r a, c ≠ ',' ∧ c ≠ ')')
    (l l' : List α) : (OFS.make l).repr r = (OFS.make l').repr r ↔ (OFS.make l).iter = (OFS.make l').iter := by
  constructor
  · intro h
    show (OFS.make l).order = (OFS.make l').order
    have h1 : tupleText r (OFS.make l).order = tupleText r (OFS.make l').order := List.append_cancel_right (List.append_cancel_left h)
    generalize (OFS.make l).order = u at h1
    generalize (OFS.make l').order = v at h1
    have split : ∀ {a b : α} {s s' : Char} {t t' : List Char}, ¬ (s ≠ ',' ∧ s ≠ ')') → ¬ (s' ≠ ',' ∧ s' ≠ ')') →
        r a ++ s :: t = r b ++ s' :: t' → a = b ∧ s = s' ∧ t = t' := by
      intro a b s s' t t' hs hs' h
      obtain ⟨i1, i2, i3⟩ := split_unique (fun c => c ≠ ',' ∧ c ≠ ')') (hc a) (hc b) hs hs' h
      exact ⟨hr _ _ i1, i2, i3⟩
    have empty : ∀ {b : α} {t t' : List Char}, ')' :: t = r b ++ ',' :: t' → False := by
      intro b t t' h
      exact absurd (split_unique (a := []) (fun c => c ≠ ',' ∧ c ≠ ')') (by simp) (hc b) (by decide) (by decide) h).2.1 (by decide)
    match u, v, h1 with
    | [], [], _ => rfl
    | [], [b], h => exact (empty (b := b) (List.cons.inj h).2).elim
    | [], b :: b' :: m, h => exact (empty (b := b) (List.cons.inj h).2).elim
    | [a], [], h => exact (empty (b := a) (List.cons.inj h).2.symm).elim
    | a :: a' :: k, [], h => exact (empty (b := a) (List.cons.inj h).2.symm).elim
    | [a], [b], h => rw [(split (t := [')']) (t' := [')']) (by decide) (by decide) (List.cons.inj h).2).1]
    | [a], b :: b' :: m, h =>
      have := (split (a := a) (b := b) (t := [')']) (t' := ' ' :: (r b' ++ tupleTail r m)) (by decide) (by decide) (List.cons.inj h).2).2.2
      exact absurd (List.cons.inj this).1 (by decide)
    | a :: a' :: k, [b], h =>
      have := (split (a := a) (b := b) (t := ' ' :: (r a' ++ tupleTail r k)) (t' := [')']) (by decide) (by decide) (List.cons.inj h).2).2.2
      exact absurd (List.cons.inj this).1 (by decide)
    | a :: a' :: k, b :: b' :: m, h =>
      have := split (a := a) (b := b) (t := ' ' :: (r a' ++ tupleTail r k)) (t' := ' ' :: (r b' ++ tupleTail r m)) (by decide) (by decide) (List.cons.inj h).2
      have h2 : tupleTail r (a' :: k) = tupleTail r (b' :: m) := by
        show ',' :: (' ' :: (r a' ++ tupleTail r k)) = ',' :: (' ' :: (r b' ++ tupleTail r m))
        rw [this.2.2]
      rw [this.1, tupleTail_inj hr hc h2]
  · intro h
    have : OFS.make l = OFS.make l' := congrArg OFS.mk h
    rw [this]

omit [DecidableEq ι] in
/-- The example of the documentation (ordered_frozenset.py:33-36), and a set with one element. -/
example : (OFS.make [3, 1, 2, 1]).repr decChars = "OrderedFrozenSet((3, 1, 2))".toList ∧ (OFS.make [7, 7]).repr decChars = "OrderedFrozenSet((7,))".toList ∧
    (OFS.make ([] : List ℕ)).repr decChars = "OrderedFrozenSet(())".toList ∧
    ((OFS.make [3, 1, 3]).repr decChars = (OFS.make [1, 3]).repr decChars ↔ [3, 1] = [1, 3]) := by
  refine ⟨by decide +kernel, by decide +kernel, by decide +kernel, C94_set (fun _ _ => decChars_inj) ?_ _ _⟩
  intro n c hc
  have := decChars_digit hc
  constructor <;> rintro rfl
  · exact absurd this.1 (by decide)
  · exact absurd this.1 (by decide)

/-- There is a function with the properties of `FloatRepr`: numerator, point and denominator. -/
def someRepr (q : ℚ) : List Char := intChars q.num ++ '.' :: decChars q.den

theorem someRepr_ok : FloatRepr someRepr := by
  have hd : ∀ n, ∀ c ∈ decChars n, 48 ≤ c.toNat ∧ c.toNat < 58 := fun n c hc => decChars_digit hc
  have hi : ∀ z, ∀ c ∈ intChars z, c ≠ '.' := by
    rintro (k | k) c hc rfl
    · have := (hd k _ hc).1
      revert this; decide
    · rcases List.mem_cons.1 hc with h | h
      · revert h; decide
      · have := (hd _ _ h).1
        revert this; decide
  have hinj : ∀ z z' : ℤ, intChars z = intChars z' → z = z' := by
    rintro (k | k) (k' | k') h
    · rw [decChars_inj h]
    · have h1 : '-' ∈ decChars k := by
        have : decChars k = '-' :: decChars (k' + 1) := h
        rw [this]; simp
      exact absurd (hd k _ h1).1 (by decide)
    · have h1 : '-' ∈ decChars k' := by
        have : '-' :: decChars (k + 1) = decChars k' := h
        rw [← this]; simp
      exact absurd (hd k' _ h1).1 (by decide)
    · have h1 : decChars (k + 1) = decChars (k' + 1) := (List.cons.inj h).2
      have := decChars_inj h1
      rw [show k = k' by omega]
  have hdig : ∀ c : Char, 48 ≤ c.toNat ∧ c.toNat < 58 → c ∈ "0123456789.e+-".toList := by
    intro c hc
    have h1 : ∀ n < 58, 48 ≤ n → Char.ofNat n ∈ "0123456789.e+-".toList := by decide
    have h2 := h1 c.toNat hc.2 hc.1
    rwa [Char.ofNat_toNat] at h2
  refine ⟨?_, ?_, ?_⟩
  · intro p q h
    obtain ⟨h1, -, h2⟩ := split_unique (fun c => c ≠ '.') (hi _) (hi _) (by simp) (by simp) h
    exact Rat.ext (hinj _ _ h1) (decChars_inj h2)
  · intro q c hc
    rcases List.mem_append.1 hc with h | h
    · cases hz : q.num with
      | ofNat k => rw [hz] at h; exact hdig c (hd k c h)
      | negSucc k =>
        rw [hz] at h
        rcases List.mem_cons.1 h with rfl | h
        · decide
        · exact hdig c (hd _ c h)
    · rcases List.mem_cons.1 h with rfl | h
      · decide
      · exact hdig c (hd _ c h)
  · intro q
    exact Or.inl (by simp [someRepr])

/-- A text for each set of indices named `true` and `false`. -/
def boolSet (s : Finset Bool) : List Char := (if true ∈ s then ['a'] else []) ++ (if false ∈ s then ['b'] else [])

theorem boolSet_inj (s s' : Finset Bool) (h : boolSet s = boolSet s') : s = s' := by
  have h2 : (true ∈ s ↔ true ∈ s') ∧ (false ∈ s ↔ false ∈ s') := by
    unfold boolSet at h
    by_cases a : true ∈ s <;> by_cases b : false ∈ s <;> by_cases a' : true ∈ s' <;> by_cases b' : false ∈ s' <;> simp [a, b, a', b'] at h ⊢
  ext x
  cases x
  · exact h2.2
  · exact h2.1

/-- The hypotheses of `C94_model` and `C94_model_width`: the same sparse indices, given twice and once. -/
example : FloatRepr someRepr ∧ (∀ s s', boolSet s = boolSet s' → s = s') ∧
    ∃ m m' : PyFwCost Bool ℤ, PyFwCost.make 3 "float32" "float64" (some [true]) (some (.int 2)) = .ok m ∧
      PyFwCost.make 3 "float32" "float64" (some [true, true]) (some (.int 2)) = .ok m' ∧
      m.repr someRepr intChars boolSet = m'.repr someRepr intChars boolSet ∧
      m.toPyCost.repr someRepr boolSet = m'.toPyCost.repr someRepr boolSet ∧ (∀ x, ',' ∉ intChars x) := by
  refine ⟨someRepr_ok, boolSet_inj, ⟨⟨"float64", some {true}, some (.int 2)⟩, 3, "float32"⟩,
    ⟨⟨"float64", some {true}, some (.int 2)⟩, 3, "float32"⟩, rfl, rfl, rfl, rfl, ?_⟩
  rintro (k | k) h
  · have := (decChars_digit (h : ',' ∈ decChars k)).1
    revert this; decide
  · rcases List.mem_cons.1 (h : ',' ∈ '-' :: decChars (k + 1)) with h | h
    · revert h; decide
    · have := (decChars_digit h).1
      revert this; decide

/-- Two texts in full. -/
example : optimizerRepr ⟨Tree.ofList [⟨none, none, none⟩], 3, fun _ => ∅, .int 2⟩
      ((⟨"float64", none, none⟩ : PyCost ℕ).repr someRepr fun _ => []) =
    "Optimizer(ctree=ContractionTree(n_nodes=1, n_inds=3), cmodel=SimpleCostModel(cost_type=float64))".toList ∧
    (ProbCore.mh 100).repr "float1024" = "MetropolisHastings(beta=100, cost_type=float1024)".toList := by
  decide +kernel

end TNCO
