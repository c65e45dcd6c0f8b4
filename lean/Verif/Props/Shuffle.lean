import Verif.Lemmas.ShuffleSort
import Verif.Props.Twister
import Verif.Props.Blocked

/-!
# C88: which indices are sliced first is decided without bias

`get_slices` shuffles the indices of a tensor that is too wide "to avoid bias after sorting" (greedy/utils.hpp:81-85).
-/

namespace TNCO

/-! ## The shuffle -/

/-- C88: one number of the distribution. Numbers of 32 bits are drawn until one is not rejected, and each value below `n` comes from
exactly `2^32 / n` of the numbers: if the generator is uniform, so is the distribution (compare C87_leaf). -/
theorem C88_number {σ : Type} (next : σ → ℕ × σ) (hd : ∀ s, (next s).1 < 2 ^ 32) (n : ℕ) (h0 : 0 < n) (hn : n < 2 ^ 32) :
    (∀ fuel s v s', scale next fuel n s = .ok (v, s') → v < n ∧ ∃ k, (∀ i < k, scaled n (next (skipDraws next i s)).1 = none) ∧
      scaled n (next (skipDraws next k s)).1 = some v ∧ s' = (next (skipDraws next k s)).2) ∧
    ∀ v < n, (2 ^ 32).count (fun x => scaled n x = some v) = 2 ^ 32 / n :=
  ⟨fun _ _ _ _ h => ⟨scale_lt hd h0 hn h, scale_first hd h0 hn h⟩, fun _ hv => scaled_count h0 hv⟩

/-- Six values: 4 of the 2^32 numbers are rejected, among them 0. -/
example : scaled 6 0 = none ∧ scaled 6 1 = some 0 ∧ scaled 6 (2 ^ 32 - 1) = some 5 ∧
    (2 ^ 32).count (fun x => scaled 6 x = some 5) = 715827882 := by
  refine ⟨by decide, by decide, by decide, ?_⟩
  rw [scaled_count (by norm_num) (by norm_num)]
  norm_num

/-- The draws of an engine with words of 32 bits. -/
def mtNext (e : {e : Mt // e.Proper}) : ℕ × {e : Mt // e.Proper} := (e.1.draw.1, ⟨e.1.draw.2, (C87_range e.1 e.2).2⟩)

theorem mtNext_lt (e : {e : Mt // e.Proper}) : (mtNext e).1 < 2 ^ 32 := (C87_range e.1 e.2).1

/-- C88: with the generator of the code, in any state that a seed leads to, the shuffle makes of each entry a choice among those before it
and itself, or does not end; no entry is lost, and nothing outside the list is touched. -/
theorem C88_shuffle (e : Mt) (h : e.Proper) (l : List ℕ) (hl : l.length < 2 ^ 32) (fuel : ℕ) :
    (∃ cs e', stdShuffle Mt.draw fuel l e = .ok (arrange 1 cs l, e') ∧ cs.length = l.length - 1 ∧ ChoicesOk 1 cs ∧ (arrange 1 cs l).Perm l ∧
      e'.Proper) ∨ stdShuffle Mt.draw fuel l e = .error .noReturn := by
  have hs := shuffle_sim (next := mtNext) (next' := Mt.draw) (f := Subtype.val) (fun _ => rfl) fuel l ⟨e, h⟩
  dsimp only at hs
  rw [hs]
  rcases shuffle_choices mtNext_lt fuel l ⟨e, h⟩ hl with ⟨cs, s', h1, h2, h3⟩ | h1
  · rw [h1]
    refine Or.inl ⟨cs, s'.1, rfl, h2, h3, ?_, s'.2⟩
    cases l with
    | nil => rw [List.length_eq_zero_iff.1 h2, arrange]
    | cons a t => exact arrange_perm _ _ _ h3 (by rw [h2, List.length_cons]; omega)
  · rw [h1]
    exact Or.inr rfl

/-- Seed 1, five entries. -/
example : ∃ l e, stdShuffle Mt.draw 3 [0, 1, 2, 3, 4] (Mt.seed 1) = .ok (l, e) ∧ l ≠ [0, 1, 2, 3, 4] := by
  rcases C88_shuffle (Mt.seed 1) (seed_proper 1) [0, 1, 2, 3, 4] (by norm_num) 3 with ⟨cs, e, h, -⟩ | h
  · refine ⟨_, e, h, ?_⟩
    have : (match stdShuffle Mt.draw 3 [0, 1, 2, 3, 4] (Mt.seed 1) with | .ok (l, _) => l != [0, 1, 2, 3, 4] | .error _ => false) = true := by
      decide +kernel
    rw [h] at this
    simpa using this
  · have : (match stdShuffle Mt.draw 3 [0, 1, 2, 3, 4] (Mt.seed 1) with | .ok _ => true | .error _ => false) = true := by decide +kernel
    rw [h] at this
    cases this

/-- C88: every order of different entries comes from exactly one list of choices: if the choices are uniform, so is the order. -/
theorem C88_orders (l l' : List ℕ) (hn : l.Nodup) (hp : l'.Perm l) :
    ∃! cs, (cs.length = l.length - 1 ∧ ChoicesOk 1 cs) ∧ arrange 1 cs l = l' := arrange_unique hn hp

example : arrange 1 [0, 2] [7, 8, 9] = [8, 7, 9] ∧ arrange 1 [1, 0] [7, 8, 9] = [9, 8, 7] ∧ [9, 8, 7].Perm [7, 8, 9] := by decide

theorem shuffled_perm {l : List ℕ} {fuel : ℕ} {e : {e : Mt // e.Proper}} {r : List ℕ × {e : Mt // e.Proper}} (hl : l.length < 2 ^ 32)
    (hr : stdShuffle mtNext fuel l e = .ok r) : r.1.Perm l := by
  rcases shuffle_choices mtNext_lt fuel l e hl with ⟨cs, s', h1, h2, h3⟩ | h1
  · rw [h1] at hr
    rw [← Except.ok.inj hr]
    cases l with
    | nil => rw [List.length_eq_zero_iff.1 h2, arrange]
    | cons a t => exact arrange_perm _ _ _ h3 (by rw [h2, List.length_cons]; omega)
  · rw [h1] at hr
    cases hr

/-- C88: the shuffle of the code is one that the model of the optimizer allows (`FwPrng`), so that all theorems on it apply to the code
wherever the shuffles end. -/
theorem C88_model : ∃ g : FwPrng {e : Mt // e.Proper} ℚ, (∀ e, g.next e = mtNext e) ∧ (∀ e, (g.uniform e).1 = e.1.uniform.1) ∧
    ∀ (e : {e : Mt // e.Proper}) l fuel l' e', l.length < 2 ^ 32 → stdShuffle Mt.draw fuel l e.1 = .ok (l', e') →
      (g.shuffle e l).1 = l' ∧ (g.shuffle e l).2.1 = e' := by
  classical
  have hs := fun fuel l e => shuffle_sim (next := mtNext) (next' := Mt.draw) (f := Subtype.val) (fun _ => rfl) fuel l e
  refine ⟨{ next := mtNext, uniform := fun e => (e.1.uniform.1, (mtNext (mtNext e).2).2),
            shuffle := fun e l => if h : l.length < 2 ^ 32 ∧ ∃ fuel r, stdShuffle mtNext fuel l e = .ok r then h.2.choose_spec.choose else (l, e),
            shuffle_perm := ?_ }, fun _ => rfl, fun _ => rfl, ?_⟩
  · intro e l
    split
    · next h =>
      exact shuffled_perm h.1 h.2.choose_spec.choose_spec
    · exact List.Perm.refl _
  · intro e l fuel l' e' hl h
    rw [hs] at h
    rcases hx : stdShuffle mtNext fuel l e with er | ⟨l1, e1⟩
    · rw [hx] at h; cases h
    · rw [hx] at h
      have hex : l.length < 2 ^ 32 ∧ ∃ fuel r, stdShuffle mtNext fuel l e = .ok r := ⟨hl, fuel, _, hx⟩
      have hr := shuffle_fuel hex.2.choose_spec.choose_spec hx
      dsimp only
      rw [dif_pos hex, hr]
      cases h
      exact ⟨rfl, rfl⟩

/-! ## The sort -/

section
variable {W : Type} [LinearOrder W]

/-- C88: after the sort, the indices are in an order in which none comes before one of higher rank; all such orders are possible, and equally
many choices of the shuffle lead to each. -/
theorem C88_unbiased (wm : WidthModel W) (big : ℕ → ℕ) (xs : List ℕ) (hn : xs.Nodup) :
    (∀ cs, cs ∈ allChoices 1 (xs.length - 1) → (sliceSort wm big (arrange 1 cs xs)).Perm xs ∧
      (sliceSort wm big (arrange 1 cs xs)).Pairwise fun x y => sliceGreater wm big y x = false) ∧
    ∀ a b : List ℕ, a.Perm xs → b.Perm xs → (a.Pairwise fun x y => sliceGreater wm big y x = false) →
      (b.Pairwise fun x y => sliceGreater wm big y x = false) →
      0 < (allChoices 1 (xs.length - 1)).countP (fun cs => sliceSort wm big (arrange 1 cs xs) = a) ∧
      (allChoices 1 (xs.length - 1)).countP (fun cs => sliceSort wm big (arrange 1 cs xs) = a) =
        (allChoices 1 (xs.length - 1)).countP (fun cs => sliceSort wm big (arrange 1 cs xs) = b) := by
  have hperm := choices_permutations hn
  have e : ∀ P : List ℕ → Bool, (allChoices 1 (xs.length - 1)).countP (fun cs => P (arrange 1 cs xs)) = xs.permutations.countP P := by
    intro P
    rw [← hperm.countP_eq, List.countP_map]
    rfl
  have hr : ∀ a b, sliceGreater wm big b a = false ↔ sliceKey wm big b ≤ sliceKey wm big a := fun a b => by
    rw [sliceGreater_key, decide_eq_false_iff_not, not_lt]
  refine ⟨fun cs hcs => ⟨?_, ?_⟩, fun a b ha hb sa sb => ?_⟩
  · have : arrange 1 cs xs ∈ xs.permutations := hperm.mem_iff.1 (List.mem_map.2 ⟨cs, hcs, rfl⟩)
    exact (sortSlices_perm _ _ _).trans (List.mem_permutations.1 this)
  · exact (sliceSort_sorted wm big _).imp fun {x y} h => (hr x y).2 h
  · have sa' := sliceSort_of_sorted wm big (sa.imp fun {x y} h => (hr x y).1 h)
    have sb' := sliceSort_of_sorted wm big (sb.imp fun {x y} h => (hr x y).1 h)
    rw [e (fun l => sliceSort wm big l = a), e (fun l => sliceSort wm big l = b)]
    refine ⟨?_, sorted_count wm big hn ha hb sa' sb'⟩
    rw [List.countP_pos_iff]
    exact ⟨a, List.mem_permutations.2 ha, by rw [decide_eq_true_eq]; exact sa'⟩

/-- C88: two indices of the same rank are among the first `m` for equally many choices, whatever `m`. -/
theorem C88_equal (wm : WidthModel W) (big : ℕ → ℕ) (xs : List ℕ) (hn : xs.Nodup) (x y : ℕ) (hx : x ∈ xs) (hy : y ∈ xs)
    (h1 : sliceGreater wm big x y = false) (h2 : sliceGreater wm big y x = false) (m : ℕ) :
    (allChoices 1 (xs.length - 1)).countP (fun cs => x ∈ (sliceSort wm big (arrange 1 cs xs)).take m) =
      (allChoices 1 (xs.length - 1)).countP (fun cs => y ∈ (sliceSort wm big (arrange 1 cs xs)).take m) := by
  have hperm := choices_permutations hn
  have e : ∀ P : List ℕ → Bool, (allChoices 1 (xs.length - 1)).countP (fun cs => P (arrange 1 cs xs)) = xs.permutations.countP P := by
    intro P
    rw [← hperm.countP_eq, List.countP_map]
    rfl
  rw [sliceGreater_key, decide_eq_false_iff_not, not_lt] at h1 h2
  rw [e (fun l => x ∈ (sliceSort wm big l).take m), e (fun l => y ∈ (sliceSort wm big l).take m)]
  exact first_count wm big hn hx hy (le_antisymm h1 h2) m

end

section
variable {W : Type} [AddCommGroup W] [LinearOrder W]

theorem sliceLoop_image (wm : WidthModel W) (π : ℕ → ℕ) (hπ : Function.Injective π) (hδ : ∀ xs v, wm.delta (xs.image π) (π v) = wm.delta xs v) :
    ∀ l S xs w, sliceLoop wm (l.map π) (S.image π) (xs.image π) w = (sliceLoop wm l S xs w).image π := by
  intro l
  induction l with
  | nil => intro S xs w; rfl
  | cons v l ih =>
    intro S xs w
    rw [List.map_cons, sliceLoop, sliceLoop]
    rw [hδ, ← Finset.image_insert, ← Finset.image_erase hπ, ih]
    split <;> rfl

theorem image_swap {x y : ℕ} {S : ISet} (h : x ∈ S ↔ y ∈ S) : S.image (Equiv.swap x y) = S := by
  ext v
  rw [Finset.mem_image]
  constructor
  · rintro ⟨u, hu, rfl⟩
    rw [Equiv.swap_apply_def]
    split_ifs with h1 h2
    · exact h.1 (h1 ▸ hu)
    · exact h.2 (h2 ▸ hu)
    · exact hu
  · intro hv
    refine ⟨Equiv.swap x y v, ?_, Equiv.swap_apply_self x y v⟩
    rw [Equiv.swap_apply_def]
    split_ifs with h1 h2
    · exact h.1 (h1 ▸ hv)
    · exact h.2 (h2 ▸ hv)
    · exact hv

omit [AddCommGroup W] [LinearOrder W] in
theorem tied_log2 {wm : WidthModel W} {big : ℕ → ℕ} {log2 : ℕ → W} {dims : Dims} (hl : ∀ i, wm.log2d i = log2 (dims.get i))
    (hs : wm.scalar = dims.isInt) {x y : ℕ} (hk : sliceKey wm big x = sliceKey wm big y) (v : ℕ) :
    log2 (dims.get (Equiv.swap x y v)) = log2 (dims.get v) := by
  have key : log2 (dims.get x) = log2 (dims.get y) := by
    cases dims with
    | int d => rfl
    | vec l =>
      have h2 := congrArg (fun p => (ofLex p).2) hk
      unfold sliceKey at h2
      dsimp only [ofLex_toLex] at h2
      rw [hs] at h2
      simpa [Dims.isInt, hl] using h2
  rw [Equiv.swap_apply_def]
  split_ifs with h1 h2
  · rw [h1, key]
  · rw [h2, key]
  · rfl

omit [LinearOrder W] in
theorem simpleWidth_swap {log2 : ℕ → W} {dims : Dims} {x y : ℕ} (h : ∀ v, log2 (dims.get (Equiv.swap x y v)) = log2 (dims.get v)) (xs : ISet) :
    simpleWidth log2 dims (xs.image (Equiv.swap x y)) = simpleWidth log2 dims xs := by
  cases dims with
  | int d =>
    unfold simpleWidth
    dsimp only
    rw [Finset.card_image_of_injective _ (Equiv.swap x y).injective]
  | vec l =>
    unfold simpleWidth
    dsimp only
    rw [Finset.sum_image fun a _ b _ h => (Equiv.swap x y).injective h]
    exact Finset.sum_congr rfl fun v _ => h v

/-- C88: two indices of the same rank are sliced for equally many choices, by the dense model, and by the sparse one if both or neither of
them are sparse. `S`: the slices so far, `xs`: the indices of the tensor that are not sliced, `ps`: those that may be sliced. -/
theorem C88_slices (log2 : ℕ → W) (dims : Dims) (wm : WidthModel W) (x y : ℕ)
    (hwm : (∃ mw, simpleWidthModel log2 dims mw = some wm) ∨
      ∃ mw sparse nProjs, sparseWidthModel log2 dims mw sparse nProjs = some wm ∧ (x ∈ sparse ↔ y ∈ sparse))
    (big : ℕ → ℕ) (ps : List ℕ) (hn : ps.Nodup) (S xs : ISet) (w : W) (hps : ∀ v ∈ ps, v ∈ xs ∧ v ∉ S) (hx : x ∈ ps) (hy : y ∈ ps)
    (h1 : sliceGreater wm big x y = false) (h2 : sliceGreater wm big y x = false) :
    (allChoices 1 (ps.length - 1)).countP (fun cs => x ∈ sliceLoop wm (sliceSort wm big (arrange 1 cs ps)) S xs w) =
      (allChoices 1 (ps.length - 1)).countP (fun cs => y ∈ sliceLoop wm (sliceSort wm big (arrange 1 cs ps)) S xs w) := by
  have hperm := choices_permutations hn
  have e : ∀ P : List ℕ → Bool, (allChoices 1 (ps.length - 1)).countP (fun cs => P (arrange 1 cs ps)) = ps.permutations.countP P := by
    intro P
    rw [← hperm.countP_eq, List.countP_map]
    rfl
  rw [sliceGreater_key, decide_eq_false_iff_not, not_lt] at h1 h2
  have hk := le_antisymm h1 h2
  have hinj := (Equiv.swap x y).injective
  have hδ : ∀ xs v, wm.delta (xs.image (Equiv.swap x y)) (Equiv.swap x y v) = wm.delta xs v := by
    intro xs v
    have hmem : Equiv.swap x y v ∈ xs.image (Equiv.swap x y) ↔ v ∈ xs := by
      rw [Finset.mem_image]
      exact ⟨fun ⟨u, hu, he⟩ => hinj he ▸ hu, fun h => ⟨v, h, rfl⟩⟩
    rcases hwm with ⟨mw, h⟩ | ⟨mw, sparse, nProjs, h, hsp⟩
    · unfold simpleWidthModel at h
      split at h
      · cases h
      · cases h
        have hlog := tied_log2 (log2 := log2) (dims := dims) (fun _ => rfl) rfl hk
        dsimp only [simpleDelta]
        rw [hlog]
        simp only [hmem]
    · unfold sparseWidthModel at h
      split at h
      · cases h
      · split at h
        · cases h
        · cases h
          have hlog := tied_log2 (log2 := log2) (dims := dims) (fun _ => rfl) rfl hk
          dsimp only [sparseDelta]
          have hi : sparse.image (Equiv.swap x y) = sparse := image_swap hsp
          have hv : Equiv.swap x y v ∈ sparse ↔ v ∈ sparse := by
            conv_lhs => rw [← hi]
            rw [Finset.mem_image]
            exact ⟨fun ⟨u, hu, he⟩ => hinj he ▸ hu, fun h => ⟨v, h, rfl⟩⟩
          have hinter : ∀ zs : ISet, simpleWidth log2 dims (zs.image (Equiv.swap x y) ∩ sparse) = simpleWidth log2 dims (zs ∩ sparse) := by
            intro zs
            conv_lhs => rw [← hi]
            rw [← Finset.image_inter _ _ hinj, simpleWidth_swap hlog]
          have htog : ISet.toggle (xs.image (Equiv.swap x y)) (Equiv.swap x y v) = (ISet.toggle xs v).image (Equiv.swap x y) := by
            unfold ISet.toggle
            simp only [hmem]
            split
            · rw [Finset.image_erase hinj]
            · rw [Finset.image_insert]
          rw [htog, hinter, hinter]
          simp only [hv, simpleDelta, hmem, hlog]
  have hp : (ps.map (Equiv.swap x y)).Perm ps := by
    refine (List.perm_ext_iff_of_nodup (hn.map hinj) hn).2 fun v => ?_
    have := image_swap (S := ps.toFinset) (x := x) (y := y) (by simp [hx, hy])
    have := congrArg (fun s => v ∈ s) this
    simpa using this
  have hS : S.image (Equiv.swap x y) = S := image_swap (by simp [(hps x hx).2, (hps y hy).2])
  have hxs : xs.image (Equiv.swap x y) = xs := image_swap (by simp [(hps x hx).1, (hps y hy).1])
  rw [e (fun l => x ∈ sliceLoop wm (sliceSort wm big l) S xs w), e (fun l => y ∈ sliceLoop wm (sliceSort wm big l) S xs w),
    relabel_count wm big (Equiv.swap x y) ps hp (fun v _ => by
      rw [Equiv.swap_apply_def]
      split_ifs with h1 h2
      · rw [h1, hk]
      · rw [h2, hk]
      · rfl) (fun l => x ∈ sliceLoop wm l S xs w)]
  refine List.countP_congr fun l _ => ?_
  rw [decide_eq_true_eq, decide_eq_true_eq]
  have := sliceLoop_image wm (Equiv.swap x y) hinj hδ (sliceSort wm big l) S xs w
  rw [hS, hxs] at this
  rw [this, Finset.mem_image]
  constructor
  · rintro ⟨u, hu, he⟩
    have : u = y := by rw [← Equiv.swap_apply_self x y u, he, Equiv.swap_apply_left]
    rwa [this] at hu
  · exact fun h => ⟨y, h, Equiv.swap_apply_right x y⟩

end

/-- Three indices, of which 4 and 6 are in two big tensors each and 5 in one: of the six lists of choices three put 4 first. -/
example : (allChoices 1 2).length = 6 ∧
    (allChoices 1 2).countP (fun cs => sliceSort { ringWm with scalar := true } (fun x => if x = 5 then 1 else 2) (arrange 1 cs [4, 5, 6]) = [4, 6, 5]) = 3 ∧
    (allChoices 1 2).countP (fun cs => sliceSort { ringWm with scalar := true } (fun x => if x = 5 then 1 else 2) (arrange 1 cs [4, 5, 6]) = [6, 4, 5]) = 3 := by
  decide +kernel

/-- Four indices of dimension 2 and a limit of 2: each pair of them is sliced for four of the 24 lists of choices, each index for twelve. -/
example : ∃ wm, simpleWidthModel (fun _ => (1 : ℤ)) (.int 2) 2 = some wm ∧ (allChoices 1 3).length = 24 ∧
    (allChoices 1 3).countP (fun cs => 1 ∈ sliceLoop wm (sliceSort wm (fun _ => 1) (arrange 1 cs [0, 1, 2, 3])) ∅ {0, 1, 2, 3} 4) = 12 ∧
    (allChoices 1 3).countP (fun cs => sliceLoop wm (sliceSort wm (fun _ => 1) (arrange 1 cs [0, 1, 2, 3])) ∅ {0, 1, 2, 3} 4 = {1, 2}) = 4 :=
  ⟨_, rfl, by decide +kernel⟩

/-! ## States that no seed leads to -/

/-- **C88 is violated**: with a text of zeros as seed (C87_violated_zero) the shuffle of three or more indices never ends. -/
theorem C88_violated_hang (dev : ℕ) : ∃ e, Mt.ofSeed dev (.text (Mt.dump ⟨List.replicate 624 0, 624⟩)) = .ok e ∧
    ∀ fuel (l : List ℕ), 3 ≤ l.length → stdShuffle Mt.draw fuel l e = .error .noReturn := by
  obtain ⟨h1, h2⟩ := C87_violated_zero dev
  refine ⟨_, h1, fun fuel l h3 => shuffle_zeros (Z := fun e => ∀ n, e.draws n = List.replicate n 0) (fun e he => ?_) fuel h3 h2⟩
  have key : ∀ n, e.draws (n + 1) = e.draw.1 :: e.draw.2.draws n := fun n => rfl
  constructor
  · have := he 1
    rw [key] at this
    exact (List.cons.inj this).1
  · intro n
    have := he (n + 1)
    rw [key, List.replicate_succ] at this
    exact (List.cons.inj this).2

/-- **C88 is violated**: with a text that holds a word of more than 32 bits the shuffle writes outside the list. -/
theorem C88_violated_bounds (dev : ℕ) : ∃ e, Mt.ofSeed dev (.text (Mt.dump ⟨2 ^ 40 :: List.replicate 623 0, 0⟩)) = .ok e ∧
    ∀ fuel, stdShuffle Mt.draw fuel [0, 1, 2] e = .error .outOfBounds := by
  have hok : Mt.Ok ⟨2 ^ 40 :: List.replicate 623 0, 0⟩ := by
    refine ⟨by rw [List.length_cons, List.length_replicate], fun w hw => ?_, by norm_num⟩
    rcases List.mem_cons.1 hw with rfl | hw
    · norm_num
    · rw [(List.mem_replicate.1 hw).2]
      norm_num
  refine ⟨_, C87_restore dev _ hok, fun fuel => ?_⟩
  have hd : (Mt.draw ⟨2 ^ 40 :: List.replicate 623 0, 0⟩).1 = 1100052695040 := by decide +kernel
  generalize (⟨2 ^ 40 :: List.replicate 623 0, 0⟩ : Mt) = e at hd
  have hs : scale Mt.draw fuel 6 e = .ok (1536, e.draw.2) := by
    unfold scale
    rw [hd, if_neg (by norm_num), show 1100052695040 * 6 % 2 ^ 64 / 2 ^ 32 = 1536 by norm_num]
  unfold stdShuffle
  rw [if_neg (by simp), if_pos (by norm_num), if_neg (by norm_num), show ([0, 1, 2].length - 1) / 2 = 1 from rfl, shufflePairs,
    show (1 + 1) * (1 + 2) = 6 from rfl, hs]
  rfl

end TNCO
