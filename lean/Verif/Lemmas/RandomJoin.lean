import Verif.Lemmas.RandomComponent
import Mathlib.Data.Finset.Image
import Mathlib.Algebra.BigOperators.Group.Finset.Basic

/-! Several components, and their names. -/

namespace TNCO
variable {σ : Type} {g : GenRng σ} {enum : Finset ℕ → List ℕ}

theorem nodup_of_unique_length {α : Type} [DecidableEq α] {l : List α} (h : (uniqueEverseen l).length = l.length) : l.Nodup := by
  have h1 : (uniqueEverseen l).toFinset = l.toFinset := by
    ext x
    rw [List.mem_toFinset, List.mem_toFinset, mem_uniqueEverseen]
  have h2 := List.toFinset_card_of_nodup (uniqueEverseen_nodup l)
  rw [h1, List.card_toFinset, h] at h2
  exact List.dedup_eq_self.1 ((List.dedup_sublist l).eq_of_length h2)

theorem component_cases (hg : g.Ok) (he : EnumOk enum) {n nInds k nOut : ℕ} (hk : 1 ≤ k) (hkn : k ≤ n) (ho : n + 1 - k + nOut ≤ nInds) (m : ℕ) (s : σ) :
    component g enum n nInds k nOut m s = .error .valueError ∨
    ∃ c s', component g enum n nInds k nOut m s = .ok (c, s') ∧ CompOk n nInds k nOut c ∧ c.1.Nodup := by
  induction m generalizing s with
  | zero => exact Or.inl rfl
  | succ m ih =>
    obtain ⟨c, s1, a1, a2⟩ := attempt_ok hg he hk hkn ho s
    simp only [component, a1, bind, Except.bind]
    split
    · rename_i hu
      exact Or.inr ⟨c, s1, rfl, a2, nodup_of_unique_length (hu.trans a2.length.symm)⟩
    · exact ih s1

theorem components_cases (hg : g.Ok) (he : EnumOk enum) {n nInds k nOut : ℕ} (hk : 1 ≤ k) (hkn : k ≤ n) (ho : n + 1 - k + nOut ≤ nInds) (m : ℕ) (s : σ) :
    components g enum n nInds k nOut m s = .error .valueError ∨
    ∃ cs s', components g enum n nInds k nOut m s = .ok (cs, s') ∧ cs.length = m ∧ ∀ c ∈ cs, CompOk n nInds k nOut c ∧ c.1.Nodup := by
  induction m generalizing s with
  | zero => exact Or.inr ⟨[], s, rfl, rfl, by simp⟩
  | succ m ih =>
    rcases component_cases hg he hk hkn ho 10 s with h | ⟨c, s1, a1, a2, a3⟩
    · left
      simp only [components, h, bind, Except.bind]
    · rcases ih s1 with h | ⟨cs, s2, b1, b2, b3⟩
      · left
        simp only [components, a1, h, bind, Except.bind]
      · right
        refine ⟨c :: cs, s2, ?_, by simp [b2], ?_⟩
        · simp only [components, a1, b1, bind, Except.bind]
        · intro d hd
          rcases List.mem_cons.1 hd with rfl | hd
          · exact ⟨a2, a3⟩
          · exact b3 d hd

/-- The tensors of a component, with its indices moved. -/
def shiftTensors (nInds i : ℕ) (ts : List (List ℕ)) : List (List ℕ) := ts.map fun xs => xs.map fun x => x + i * nInds

/-- The tensors of components with the numbers `i`, `i + 1`, … -/
def joinFrom (nInds i : ℕ) (cs : List (List (List ℕ) × Finset ℕ)) : List (List ℕ) := (cs.zipIdx i).flatMap fun e => shiftTensors nInds e.2 e.1.1

theorem joinFrom_cons (nInds i : ℕ) (c : List (List ℕ) × Finset ℕ) (cs) :
    joinFrom nInds i (c :: cs) = shiftTensors nInds i c.1 ++ joinFrom nInds (i + 1) cs := by
  simp [joinFrom, List.zipIdx_cons]

theorem mem_shift {nInds i x : ℕ} {xs : List ℕ} (h : ∀ y ∈ xs, y < nInds) :
    x ∈ xs.map (fun y => y + i * nInds) ↔ x / nInds = i ∧ x % nInds ∈ xs := by
  rw [List.mem_map]
  constructor
  · rintro ⟨y, hy, rfl⟩
    have hl := h y hy
    rw [Nat.add_mul_div_right _ _ (by omega), Nat.div_eq_of_lt hl, Nat.add_mul_mod_self_right, Nat.mod_eq_of_lt hl]
    exact ⟨by omega, hy⟩
  · rintro ⟨rfl, hm⟩
    exact ⟨_, hm, by rw [Nat.mul_comm]; exact Nat.mod_add_div x nInds⟩

variable {n nInds k nOut : ℕ}

theorem shift_degree {c : List (List ℕ) × Finset ℕ} (hc : CompOk n nInds k nOut c) (hpos : 0 < nInds) (i x : ℕ) :
    degree (shiftTensors nInds i c.1) x = if x / nInds = i then degOf nInds k nOut (x % nInds) else 0 := by
  unfold degree shiftTensors
  rw [List.countP_map]
  split
  · rename_i hx
    rw [← hc.deg _ (Nat.mod_lt x hpos)]
    apply List.countP_congr
    intro t ht
    simp only [Function.comp, decide_eq_true_eq]
    rw [mem_shift (hc.lt t ht)]
    simp [hx]
  · rename_i hx
    rw [List.countP_eq_zero]
    intro t ht
    simp only [Function.comp, decide_eq_true_eq]
    rw [mem_shift (hc.lt t ht)]
    simp [hx]

theorem join_degree {cs : List (List (List ℕ) × Finset ℕ)} (hcs : ∀ c ∈ cs, CompOk n nInds k nOut c) (hpos : 0 < nInds) (i x : ℕ) :
    degree (joinFrom nInds i cs) x = if i ≤ x / nInds ∧ x / nInds < i + cs.length then degOf nInds k nOut (x % nInds) else 0 := by
  induction cs generalizing i with
  | nil =>
    rw [if_neg (by simp)]
    rfl
  | cons c cs ih =>
    have e : degree (joinFrom nInds i (c :: cs)) x = degree (shiftTensors nInds i c.1) x + degree (joinFrom nInds (i + 1) cs) x := by
      rw [joinFrom_cons]
      exact List.countP_append
    rw [e, shift_degree (hcs c (by simp)) hpos, ih (fun c hc => hcs c (by simp [hc])), List.length_cons]
    by_cases h1 : x / nInds = i
    · rw [if_pos h1, if_neg (by omega), if_pos (by omega)]
      rfl
    · rw [if_neg h1, Nat.zero_add]
      congr 1
      apply propext
      omega

theorem join_length {cs : List (List (List ℕ) × Finset ℕ)} (hcs : ∀ c ∈ cs, CompOk n nInds k nOut c) (i : ℕ) :
    (joinFrom nInds i cs).length = n * cs.length := by
  induction cs generalizing i with
  | nil => rfl
  | cons c cs ih =>
    rw [joinFrom_cons, List.length_append, ih (fun c hc => hcs c (by simp [hc])), shiftTensors, List.length_map, (hcs c (by simp)).length, List.length_cons, Nat.mul_succ, Nat.add_comm]

theorem mem_join {cs : List (List (List ℕ) × Finset ℕ)} {i : ℕ} {t : List ℕ} :
    t ∈ joinFrom nInds i cs ↔ ∃ (j : ℕ) (c : List (List ℕ) × Finset ℕ), cs[j]? = some c ∧ ∃ xs ∈ c.1, t = xs.map fun x => x + (i + j) * nInds := by
  unfold joinFrom
  rw [List.mem_flatMap]
  constructor
  · rintro ⟨⟨c, y⟩, h1, h2⟩
    obtain ⟨xs, hxs, rfl⟩ := List.mem_map.1 h2
    obtain ⟨h3, h4, h5⟩ := List.mem_zipIdx h1
    refine ⟨y - i, c, by rw [h5]; exact List.getElem?_eq_getElem (by omega), xs, hxs, ?_⟩
    show xs.map (fun x => x + y * nInds) = _
    rw [show i + (y - i) = y by omega]
  · rintro ⟨j, c, h2, xs, hxs, rfl⟩
    refine ⟨(c, i + j), ?_, List.mem_map_of_mem hxs⟩
    rw [List.mem_iff_getElem?]
    exact ⟨j, by rw [List.getElem?_zipIdx, h2]; simp⟩

/-- Every tensor belongs to one component. -/
theorem join_comp {cs : List (List (List ℕ) × Finset ℕ)} (hcs : ∀ c ∈ cs, CompOk n nInds k nOut c) {i : ℕ} {t : List ℕ} (ht : t ∈ joinFrom nInds i cs) :
    t ≠ [] ∧ t.Nodup ∧ ∃ j, i ≤ j ∧ j < i + cs.length ∧ ∀ x ∈ t, x / nInds = j := by
  obtain ⟨j, c, hj, xs, hxs, rfl⟩ := mem_join.1 ht
  have hc := hcs c (List.mem_of_getElem? hj)
  refine ⟨by simpa using hc.nonempty xs hxs, (hc.nodup xs hxs).map fun a b hab => by simpa using hab, i + j, by omega, ?_, ?_⟩
  · have := (List.getElem?_eq_some_iff.1 hj).1
    omega
  · intro x hx
    exact ((mem_shift (hc.lt xs hxs)).1 hx).1

theorem join_nodup {cs : List (List (List ℕ) × Finset ℕ)} (hcs : ∀ c ∈ cs, CompOk n nInds k nOut c ∧ c.1.Nodup) (i : ℕ) :
    (joinFrom nInds i cs).Nodup := by
  induction cs generalizing i with
  | nil => simp [joinFrom]
  | cons c cs ih =>
    rw [joinFrom_cons]
    obtain ⟨hc, hn⟩ := hcs c (by simp)
    refine List.Nodup.append (hn.map (List.map_injective_iff.2 fun a b hab => by simpa using hab)) (ih (fun c hc => hcs c (by simp [hc])) _) ?_
    intro t h1 h2
    obtain ⟨xs, hxs, rfl⟩ := List.mem_map.1 h1
    obtain ⟨hne, -, j, hj, -, hx⟩ := join_comp (fun c hc => (hcs c (by simp [hc])).1) h2
    obtain ⟨x, hxm⟩ := List.exists_mem_of_ne_nil _ hne
    have := hx x hxm
    have := ((mem_shift (hc.lt xs hxs)).1 hxm).1
    omega

theorem join_tensors {cs : List (List (List ℕ) × Finset ℕ)} (hcs : ∀ c ∈ cs, CompOk n nInds k nOut c) (i q : ℕ) :
    ((joinFrom nInds i cs).countP fun t => decide (∃ x ∈ t, x / nInds = q)) = if i ≤ q ∧ q < i + cs.length then n else 0 := by
  induction cs generalizing i with
  | nil =>
    rw [if_neg (by simp)]
    rfl
  | cons c cs ih =>
    have hc := hcs c (by simp)
    have e : (shiftTensors nInds i c.1).countP (fun t => decide (∃ x ∈ t, x / nInds = q)) = if i = q then n else 0 := by
      have key : ∀ t ∈ shiftTensors nInds i c.1, (∃ x ∈ t, x / nInds = q) ↔ i = q := by
        intro t ht
        obtain ⟨xs, hxs, rfl⟩ := List.mem_map.1 ht
        obtain ⟨x, hx⟩ := List.exists_mem_of_ne_nil _ (hc.nonempty xs hxs)
        constructor
        · rintro ⟨y, hy, rfl⟩
          exact ((mem_shift (hc.lt xs hxs)).1 hy).1.symm
        · rintro rfl
          exact ⟨x + i * nInds, List.mem_map_of_mem hx, ((mem_shift (hc.lt xs hxs)).1 (List.mem_map_of_mem hx)).1⟩
      split
      · rename_i hq
        have hl : n = (shiftTensors nInds i c.1).length := by rw [shiftTensors, List.length_map, hc.length]
        rw [hl, List.countP_eq_length]
        intro t ht
        rw [decide_eq_true_eq]
        exact (key t ht).2 hq
      · rename_i hq
        rw [List.countP_eq_zero]
        intro t ht
        rw [decide_eq_true_eq]
        exact fun h => hq ((key t ht).1 h)
    rw [joinFrom_cons, List.countP_append, e, ih (fun c hc => hcs c (by simp [hc])), List.length_cons]
    by_cases h1 : i = q
    · rw [if_pos h1, if_neg (by omega), if_pos (by omega)]
      rfl
    · rw [if_neg h1, Nat.zero_add]
      congr 1
      apply propext
      omega

theorem linked_map {α β : Type} {f : α → β} {ts : List (List α)} {us : List (List β)} (h : ∀ t ∈ ts, t.map f ∈ us) {x y : α} (hl : LinkedInds ts x y) :
    LinkedInds us (f x) (f y) := by
  induction hl with
  | refl => exact .refl
  | tail _ hab ih =>
    obtain ⟨t, ht, h1, h2⟩ := hab
    exact ih.tail ⟨_, h t ht, List.mem_map_of_mem h1, List.mem_map_of_mem h2⟩

theorem join_linked {cs : List (List (List ℕ) × Finset ℕ)} (hcs : ∀ c ∈ cs, CompOk n nInds k nOut c) (hk : 2 ≤ k) (hpos : 0 < nInds) {x y : ℕ}
    (hx : x / nInds < cs.length) : LinkedInds (joinFrom nInds 0 cs) x y ↔ x / nInds = y / nInds := by
  constructor
  · intro h
    induction h with
    | refl => rfl
    | tail _ hab ih =>
      obtain ⟨t, ht, h1, h2⟩ := hab
      obtain ⟨-, -, j, -, -, hj⟩ := join_comp hcs ht
      rw [ih, hj _ h1, hj _ h2]
  · intro h
    have hj : cs[x / nInds]? = some cs[x / nInds] := List.getElem?_eq_getElem hx
    have hc := hcs _ (List.mem_of_getElem? hj)
    have hl := hc.conn hk (x % nInds) (Nat.mod_lt x hpos) (y % nInds) (Nat.mod_lt y hpos)
    have := linked_map (f := fun a => a + (0 + x / nInds) * nInds) (us := joinFrom nInds 0 cs)
      (fun t ht => mem_join.2 ⟨_, _, hj, t, ht, rfl⟩) hl
    simp only [Nat.zero_add] at this
    rw [Nat.mul_comm, Nat.mod_add_div, h, Nat.mod_add_div] at this
    exact this

theorem mem_joinOutput {cs : List (List (List ℕ) × Finset ℕ)} (hcs : ∀ c ∈ cs, CompOk n nInds k nOut c) (hpos : 0 < nInds) {x : ℕ} :
    x ∈ joinOutput nInds cs ↔ x / nInds < cs.length ∧ nInds - nOut ≤ x % nInds := by
  have gen : ∀ i, x ∈ (cs.zipIdx i).foldr (fun e o => e.1.2.image (fun x => x + e.2 * nInds) ∪ o) ∅ ↔
      (i ≤ x / nInds ∧ x / nInds < i + cs.length) ∧ nInds - nOut ≤ x % nInds := by
    induction cs with
    | nil => intro i; simp
    | cons c cs ih =>
      intro i
      have hc := hcs c (by simp)
      rw [List.zipIdx_cons, List.foldr_cons, Finset.mem_union, ih (fun c hc => hcs c (by simp [hc])), List.length_cons]
      have e : x ∈ c.2.image (fun x => x + i * nInds) ↔ x / nInds = i ∧ nInds - nOut ≤ x % nInds := by
        rw [Finset.mem_image]
        constructor
        · rintro ⟨y, hy, rfl⟩
          obtain ⟨hl, h2⟩ := (hc.outs y).1 hy
          rw [Nat.add_mul_div_right _ _ hpos, Nat.div_eq_of_lt hl, Nat.add_mul_mod_self_right, Nat.mod_eq_of_lt hl]
          exact ⟨by omega, h2⟩
        · rintro ⟨rfl, hm⟩
          exact ⟨x % nInds, (hc.outs _).2 ⟨Nat.mod_lt _ hpos, hm⟩, by rw [Nat.mul_comm]; exact Nat.mod_add_div x nInds⟩
      rw [e]
      generalize (nInds - nOut ≤ x % nInds) = p
      constructor
      · rintro (⟨h1, h2⟩ | ⟨⟨h1, h2⟩, h3⟩)
        · exact ⟨by omega, h2⟩
        · exact ⟨by omega, h3⟩
      · rintro ⟨h1, h2⟩
        by_cases h : x / nInds = i
        · exact Or.inl ⟨h, h2⟩
        · exact Or.inr ⟨by omega, h2⟩
  have := gen 0
  unfold joinOutput
  rw [this]
  simp

/-- Counting the indices of one component. -/
theorem card_comp (hpos : 0 < nInds) (q : ℕ) (p : ℕ → Prop) [DecidablePred p] (A : Finset ℕ) (hA : ∀ x, x ∈ A ↔ x / nInds = q ∧ p (x % nInds)) :
    A.card = ((Finset.range nInds).filter p).card := by
  have : A = ((Finset.range nInds).filter p).image fun x => x + q * nInds := by
    ext x
    rw [hA, Finset.mem_image]
    constructor
    · rintro ⟨rfl, hm⟩
      exact ⟨x % nInds, Finset.mem_filter.2 ⟨Finset.mem_range.2 (Nat.mod_lt _ hpos), hm⟩, by rw [Nat.mul_comm]; exact Nat.mod_add_div x nInds⟩
    · rintro ⟨y, hy, rfl⟩
      obtain ⟨hl, h2⟩ := Finset.mem_filter.1 hy
      rw [Finset.mem_range] at hl
      rw [Nat.add_mul_div_right _ _ hpos, Nat.div_eq_of_lt hl, Nat.add_mul_mod_self_right, Nat.mod_eq_of_lt hl]
      exact ⟨by omega, h2⟩
  rw [this, Finset.card_image_of_injective _ fun a b hab => by simpa using hab]

theorem card_all (hpos : 0 < nInds) (m : ℕ) (p : ℕ → Prop) [DecidablePred p] (A : Finset ℕ) (hA : ∀ x, x ∈ A ↔ x / nInds < m ∧ p (x % nInds)) :
    A.card = ((Finset.range nInds).filter p).card * m := by
  rw [Finset.card_eq_sum_card_fiberwise (f := fun x => x / nInds) (t := Finset.range m)]
  · rw [Finset.sum_congr rfl (g := fun _ => ((Finset.range nInds).filter p).card), Finset.sum_const, Finset.card_range, Nat.nsmul_eq_mul, Nat.mul_comm]
    intro q hq
    apply card_comp hpos q p
    intro x
    rw [Finset.mem_filter, hA]
    rw [Finset.mem_range] at hq
    constructor
    · rintro ⟨⟨-, h⟩, rfl⟩
      exact ⟨rfl, h⟩
    · rintro ⟨rfl, h⟩
      exact ⟨⟨hq, h⟩, rfl⟩
  · intro x hx
    exact Finset.mem_coe.2 (Finset.mem_range.2 ((hA x).1 (Finset.mem_coe.1 hx)).1)

theorem card_outer (ho : nOut ≤ nInds) (m : ℕ) (hm : m ≤ nOut) :
    ((Finset.range nInds).filter fun x => nInds - nOut ≤ x ∧ x < nInds - nOut + m).card = m := by
  have : (Finset.range nInds).filter (fun x => nInds - nOut ≤ x ∧ x < nInds - nOut + m) = Finset.Ico (nInds - nOut) (nInds - nOut + m) := by
    ext x
    rw [Finset.mem_filter, Finset.mem_range, Finset.mem_Ico]
    omega
  rw [this, Nat.card_Ico]
  omega

theorem mem_allIndices {ν : Type} [DecidableEq ν] {ts : List (List ν)} {x : ν} : x ∈ allIndices ts ↔ 0 < degree ts x := by
  unfold allIndices degree
  rw [List.mem_toFinset, List.mem_flatten, List.countP_pos_iff]
  simp

/-- All components together, before the indices are renamed. -/
theorem join_ok {cs : List (List (List ℕ) × Finset ℕ)} (hcs : ∀ c ∈ cs, CompOk n nInds k nOut c ∧ c.1.Nodup) (hpos : 0 < nInds) (hk : 1 ≤ k) (ho : nOut ≤ nInds) :
    RandomNet n nInds k nOut (nPlain k nOut) cs.length (joinFrom nInds 0 cs) (joinOutput nInds cs) ∧
    (2 ≤ k → Components n nInds nOut cs.length (joinFrom nInds 0 cs) (joinOutput nInds cs) fun x => x / nInds) := by
  have hcs' : ∀ c ∈ cs, CompOk n nInds k nOut c := fun c hc => (hcs c hc).1
  have hall : ∀ x, x ∈ allIndices (joinFrom nInds 0 cs) ↔ x / nInds < cs.length := by
    intro x
    rw [mem_allIndices, join_degree hcs' hpos]
    have := degOf_pos (nOut := nOut) hk (Nat.mod_lt x hpos) ho
    rw [Nat.zero_add]
    by_cases h : x / nInds < cs.length
    · rw [if_pos ⟨Nat.zero_le _, h⟩]
      exact ⟨fun _ => h, fun _ => this⟩
    · rw [if_neg fun h' => h h'.2]
      exact ⟨fun h' => absurd h' (by omega), fun h' => absurd h' h⟩
  have hdeg : ∀ x, x / nInds < cs.length → degree (joinFrom nInds 0 cs) x = degOf nInds k nOut (x % nInds) := by
    intro x hx
    rw [join_degree hcs' hpos, if_pos ⟨Nat.zero_le _, by rw [Nat.zero_add]; exact hx⟩]
  have hout : ∀ x, x ∈ joinOutput nInds cs ↔ x / nInds < cs.length ∧ (nInds - nOut ≤ x % nInds ∧ x % nInds < nInds - nOut + nOut) := by
    intro x
    rw [mem_joinOutput hcs' hpos]
    have := Nat.mod_lt x hpos
    constructor
    · rintro ⟨h1, h2⟩; exact ⟨h1, h2, by omega⟩
    · rintro ⟨h1, h2, -⟩; exact ⟨h1, h2⟩
  refine ⟨⟨join_length hcs' 0, join_nodup hcs 0, fun t ht => (join_comp hcs' ht).2.1, fun t ht => (join_comp hcs' ht).1, ?_, ?_, ?_, ?_, ?_, ?_⟩, fun h2 => ⟨?_, ?_, ?_, ?_, ?_⟩⟩
  · rw [card_all hpos cs.length (fun _ => True) _ (fun x => by rw [hall]; simp)]
    simp
  · intro x hx
    exact (hall x).2 ((hout x).1 hx).1
  · rw [card_all hpos cs.length (fun x => nInds - nOut ≤ x ∧ x < nInds - nOut + nOut) _ hout, card_outer ho nOut (le_refl _)]
  · intro x hx hno
    have hx' := (hall x).1 hx
    rw [hdeg x hx', degOf, if_pos]
    by_contra hc
    exact hno ((hout x).2 ⟨hx', by omega, by have := Nat.mod_lt x hpos; omega⟩)
  · intro x hx
    obtain ⟨h1, h2, h3⟩ := (hout x).1 hx
    rw [hdeg x h1, degOf, if_neg (by omega)]
    split
    · exact Or.inl rfl
    · exact Or.inr rfl
  · intro h2
    have hadd := nPlain_add k nOut
    rw [card_all hpos cs.length (fun x => nInds - nOut ≤ x ∧ x < nInds - nOut + nPlain k nOut), card_outer ho _ (by omega)]
    intro x
    rw [Finset.mem_filter, hout]
    have := Nat.mod_lt x hpos
    constructor
    · rintro ⟨⟨h1, h3, h4⟩, h5⟩
      refine ⟨h1, h3, ?_⟩
      rw [hdeg x h1, degOf, if_neg (by omega)] at h5
      split at h5
      · assumption
      · omega
    · rintro ⟨h1, h3, h4⟩
      refine ⟨⟨h1, h3, by omega⟩, ?_⟩
      rw [hdeg x h1, degOf, if_neg (by omega), if_pos h4]
  · intro x hx
    exact (hall x).1 hx
  · intro x hx y _
    exact join_linked hcs' h2 hpos ((hall x).1 hx)
  · intro q hq
    rw [join_tensors hcs', if_pos (by omega)]
  · intro q hq
    rw [card_comp hpos q (fun _ => True)]
    · simp
    · intro x
      rw [Finset.mem_filter, hall]
      constructor
      · rintro ⟨-, h⟩; exact ⟨h, trivial⟩
      · rintro ⟨rfl, -⟩; exact ⟨hq, rfl⟩
  · intro q hq
    rw [card_comp hpos q (fun x => nInds - nOut ≤ x ∧ x < nInds - nOut + nOut), card_outer ho nOut (le_refl _)]
    intro x
    rw [Finset.mem_filter, hout]
    constructor
    · rintro ⟨⟨-, h⟩, h'⟩; exact ⟨h', h⟩
    · rintro ⟨rfl, h⟩; exact ⟨⟨hq, h⟩, rfl⟩

/-! ## Order and names -/

variable {ν μ : Type} [DecidableEq ν] [DecidableEq μ]

theorem allIndices_perm {ts us : List (List ν)} (h : us.Perm ts) : allIndices us = allIndices ts := by
  ext x
  rw [mem_allIndices, mem_allIndices, degree, degree, h.countP_eq]

theorem RandomNet.perm {n nInds k nOut p m : ℕ} {ts us : List (List ν)} {out : Finset ν} (h : us.Perm ts) (H : RandomNet n nInds k nOut p m ts out) :
    RandomNet n nInds k nOut p m us out := by
  have hd : ∀ x, degree us x = degree ts x := fun x => h.countP_eq _
  have ha := allIndices_perm h
  refine ⟨h.length_eq.trans H.tensors, h.nodup_iff.2 H.distinct, fun t ht => H.nodup t (h.mem_iff.1 ht), fun t ht => H.nonempty t (h.mem_iff.1 ht),
    ha ▸ H.inds, ha ▸ H.sub, H.outs, fun x hx hn => ?_, fun x hx => ?_, fun hk => ?_⟩
  · rw [hd]; exact H.inner x (ha ▸ hx) hn
  · rw [hd]; exact H.outer x hx
  · simp only [hd]; exact H.plain hk

theorem Components.perm {n nInds nOut m : ℕ} {ts us : List (List ν)} {out : Finset ν} {comp : ν → ℕ} (h : us.Perm ts)
    (H : Components n nInds nOut m ts out comp) : Components n nInds nOut m us out comp := by
  have ha := allIndices_perm h
  refine ⟨ha ▸ H.lt, fun x hx y hy => ?_, fun c hc => (h.countP_eq _).trans (H.tensors c hc), fun c hc => by rw [ha]; exact H.inds c hc, H.outs⟩
  rw [← H.linked x (ha ▸ hx) y (ha ▸ hy)]
  exact ⟨LinkedInds.mono fun t ht => h.mem_iff.1 ht, LinkedInds.mono fun t ht => h.mem_iff.2 ht⟩

theorem mem_all {ts : List (List ν)} {x : ν} : x ∈ allIndices ts ↔ ∃ t ∈ ts, x ∈ t := by
  unfold allIndices
  rw [List.mem_toFinset, List.mem_flatten]

theorem allIndices_map (f : ν → μ) (ts : List (List ν)) : allIndices (ts.map (List.map f)) = (allIndices ts).image f := by
  ext y
  rw [mem_all, Finset.mem_image]
  constructor
  · rintro ⟨t, ht, hy⟩
    obtain ⟨u, hu, rfl⟩ := List.mem_map.1 ht
    obtain ⟨x, hx, rfl⟩ := List.mem_map.1 hy
    exact ⟨x, mem_all.2 ⟨u, hu, hx⟩, rfl⟩
  · rintro ⟨x, hx, rfl⟩
    obtain ⟨u, hu, hx⟩ := mem_all.1 hx
    exact ⟨_, List.mem_map_of_mem hu, List.mem_map_of_mem hx⟩

theorem mem_map_injOn {f : ν → μ} {ts : List (List ν)} (hf : Set.InjOn f (allIndices ts)) {x : ν} (hx : x ∈ allIndices ts) {t : List ν} (ht : t ∈ ts) :
    f x ∈ t.map f ↔ x ∈ t := by
  constructor
  · intro h
    obtain ⟨y, hy, e⟩ := List.mem_map.1 h
    exact hf (Finset.mem_coe.2 (mem_all.2 ⟨t, ht, hy⟩)) (Finset.mem_coe.2 hx) e ▸ hy
  · exact List.mem_map_of_mem

theorem degree_map {f : ν → μ} {ts : List (List ν)} (hf : Set.InjOn f (allIndices ts)) {x : ν} (hx : x ∈ allIndices ts) :
    degree (ts.map (List.map f)) (f x) = degree ts x := by
  unfold degree
  rw [List.countP_map]
  apply List.countP_congr
  intro t ht
  simp only [Function.comp, decide_eq_true_eq]
  exact mem_map_injOn hf hx ht

theorem RandomNet.map {n nInds k nOut p m : ℕ} {ts : List (List ν)} {out : Finset ν} {f : ν → μ} (hf : Set.InjOn f (allIndices ts))
    (H : RandomNet n nInds k nOut p m ts out) : RandomNet n nInds k nOut p m (ts.map (List.map f)) (out.image f) := by
  have hinj : ∀ t ∈ ts, ∀ u ∈ ts, t.map f = u.map f → t = u := by
    intro t ht u hu e
    have hl : t.length = u.length := by simpa using congrArg List.length e
    apply List.ext_getElem hl
    intro i h1 h2
    apply hf (Finset.mem_coe.2 (mem_all.2 ⟨t, ht, List.getElem_mem h1⟩)) (Finset.mem_coe.2 (mem_all.2 ⟨u, hu, List.getElem_mem h2⟩))
    have h1' : i < (t.map f).length := by simpa using h1
    have h2' : i < (u.map f).length := by simpa using h2
    have : (t.map f)[i] = (u.map f)[i] := by simp only [e]
    simpa using this
  have hfo : Set.InjOn f out := hf.mono (Finset.coe_subset.2 H.sub)
  refine ⟨by rw [List.length_map]; exact H.tensors, List.Nodup.map_on hinj H.distinct, ?_, ?_, ?_, ?_, ?_, ?_, ?_, ?_⟩
  · intro t ht
    obtain ⟨u, hu, rfl⟩ := List.mem_map.1 ht
    exact List.Nodup.map_on (fun x hx y hy e => hf (Finset.mem_coe.2 (mem_all.2 ⟨u, hu, hx⟩)) (Finset.mem_coe.2 (mem_all.2 ⟨u, hu, hy⟩)) e) (H.nodup u hu)
  · intro t ht
    obtain ⟨u, hu, rfl⟩ := List.mem_map.1 ht
    simpa using H.nonempty u hu
  · rw [allIndices_map, Finset.card_image_of_injOn hf]; exact H.inds
  · rw [allIndices_map]; exact Finset.image_subset_image H.sub
  · rw [Finset.card_image_of_injOn hfo]; exact H.outs
  · intro y hy hn
    rw [allIndices_map] at hy
    obtain ⟨x, hx, rfl⟩ := Finset.mem_image.1 hy
    rw [degree_map hf hx]
    exact H.inner x hx fun h => hn (Finset.mem_image_of_mem f h)
  · intro y hy
    obtain ⟨x, hx, rfl⟩ := Finset.mem_image.1 hy
    rw [degree_map hf (H.sub hx)]
    exact H.outer x hx
  · intro hk
    rw [← H.plain hk]
    have e : (out.image f).filter (fun x => degree (ts.map (List.map f)) x = 1) = (out.filter fun x => degree ts x = 1).image f := by
      ext y
      rw [Finset.mem_filter, Finset.mem_image, Finset.mem_image]
      constructor
      · rintro ⟨⟨x, hx, rfl⟩, hd⟩
        rw [degree_map hf (H.sub hx)] at hd
        exact ⟨x, Finset.mem_filter.2 ⟨hx, hd⟩, rfl⟩
      · rintro ⟨x, hx, rfl⟩
        obtain ⟨hx, hd⟩ := Finset.mem_filter.1 hx
        exact ⟨⟨x, hx, rfl⟩, by rw [degree_map hf (H.sub hx)]; exact hd⟩
    rw [e, Finset.card_image_of_injOn (hfo.mono (Finset.coe_subset.2 (Finset.filter_subset _ _)))]

theorem Components.map {n nInds nOut m : ℕ} {ts : List (List ν)} {out : Finset ν} {comp : ν → ℕ} {f : ν → μ} {h : μ → ν} (hs : out ⊆ allIndices ts)
    (hh : ∀ x ∈ allIndices ts, h (f x) = x) (H : Components n nInds nOut m ts out comp) :
    Components n nInds nOut m (ts.map (List.map f)) (out.image f) (comp ∘ h) := by
  have hf : Set.InjOn f (allIndices ts) := by
    intro x hx y hy e
    rw [← hh x (Finset.mem_coe.1 hx), ← hh y (Finset.mem_coe.1 hy), e]
  have hcard : ∀ (A : Finset ν), A ⊆ allIndices ts → ∀ c, ((A.image f).filter fun y => (comp ∘ h) y = c).card = (A.filter fun x => comp x = c).card := by
    intro A hA c
    have e : (A.image f).filter (fun y => (comp ∘ h) y = c) = (A.filter fun x => comp x = c).image f := by
      ext y
      rw [Finset.mem_filter, Finset.mem_image, Finset.mem_image]
      constructor
      · rintro ⟨⟨x, hx, rfl⟩, hd⟩
        rw [Function.comp, hh x (hA hx)] at hd
        exact ⟨x, Finset.mem_filter.2 ⟨hx, hd⟩, rfl⟩
      · rintro ⟨x, hx, rfl⟩
        obtain ⟨hx, hd⟩ := Finset.mem_filter.1 hx
        exact ⟨⟨x, hx, rfl⟩, by rw [Function.comp, hh x (hA hx)]; exact hd⟩
    rw [e, Finset.card_image_of_injOn (hf.mono (Finset.coe_subset.2 ((Finset.filter_subset _ _).trans hA)))]
  refine ⟨?_, ?_, ?_, ?_, ?_⟩
  · intro y hy
    rw [allIndices_map] at hy
    obtain ⟨x, hx, rfl⟩ := Finset.mem_image.1 hy
    rw [Function.comp, hh x hx]
    exact H.lt x hx
  · intro y hy y' hy'
    rw [allIndices_map] at hy hy'
    obtain ⟨x, hx, rfl⟩ := Finset.mem_image.1 hy
    obtain ⟨x', hx', rfl⟩ := Finset.mem_image.1 hy'
    rw [Function.comp, Function.comp, hh x hx, hh x' hx', ← H.linked x hx x' hx']
    constructor
    · intro hl
      have := linked_map (f := h) (us := ts) (fun t ht => by
        obtain ⟨u, hu, rfl⟩ := List.mem_map.1 ht
        have e : (u.map f).map h = u := by
          rw [List.map_map]
          exact (List.map_congr_left fun z hz => hh z (mem_all.2 ⟨u, hu, hz⟩)).trans (List.map_id u)
        rw [e]
        exact hu) hl
      rwa [hh x hx, hh x' hx'] at this
    · exact linked_map fun t ht => List.mem_map_of_mem ht
  · intro c hc
    rw [← H.tensors c hc, List.countP_map]
    apply List.countP_congr
    intro t ht
    simp only [Function.comp, decide_eq_true_eq, List.mem_map]
    constructor
    · rintro ⟨y, ⟨x, hx, rfl⟩, e⟩
      exact ⟨x, hx, by rwa [hh x (mem_all.2 ⟨t, ht, hx⟩)] at e⟩
    · rintro ⟨x, hx, e⟩
      exact ⟨f x, ⟨x, hx, rfl⟩, by rwa [hh x (mem_all.2 ⟨t, ht, hx⟩)]⟩
  · intro c hc
    rw [allIndices_map, hcard _ (Finset.Subset.refl _)]
    exact H.inds c hc
  · intro c hc
    rw [hcard _ hs]
    exact H.outs c hc

/-- Names that are all different give an injective renaming. -/
theorem nameMap_injOn {names : List ν} {ts : List (List ℕ)} (hn : names.Nodup) (hl : names.length = (uniqueEverseen ts.flatten).length) (d : ν) :
    Set.InjOn (fun x => (dget (nameMap names ts) x).getD d) (allIndices ts) := by
  have hu := uniqueEverseen_nodup ts.flatten
  have hkeys : ((uniqueEverseen ts.flatten).zip names).map Prod.fst = uniqueEverseen ts.flatten := List.map_fst_zip (by omega)
  have key : ∀ (i : ℕ) (h : i < (uniqueEverseen ts.flatten).length) (h' : i < names.length),
      dget (nameMap names ts) (uniqueEverseen ts.flatten)[i] = some names[i] := by
    intro i h h'
    unfold nameMap
    rw [dget_dupdate]
    have : dget ((uniqueEverseen ts.flatten).zip names).reverse (uniqueEverseen ts.flatten)[i] = some names[i] := by
      apply dget_of_mem
      · rw [List.map_reverse, hkeys, List.nodup_reverse]
        exact hu
      · rw [List.mem_reverse, List.mem_iff_getElem]
        exact ⟨i, by rw [List.length_zip]; omega, by rw [List.getElem_zip]⟩
    rw [this]
    rfl
  intro x hx y hy e
  have pos : ∀ z, z ∈ (allIndices ts : Set ℕ) → ∃ i, ∃ h : i < (uniqueEverseen ts.flatten).length, (uniqueEverseen ts.flatten)[i] = z := by
    intro z hz
    have : z ∈ uniqueEverseen ts.flatten := by
      rw [mem_uniqueEverseen]
      exact List.mem_toFinset.1 (Finset.mem_coe.1 hz)
    obtain ⟨i, h, e⟩ := List.mem_iff_getElem.1 this
    exact ⟨i, h, e⟩
  obtain ⟨i, hi, rfl⟩ := pos x hx
  obtain ⟨j, hj, rfl⟩ := pos y hy
  simp only [key i hi (by omega), key j hj (by omega), Option.getD_some] at e
  have := (hn.getElem_inj_iff).1 e
  subst this
  rfl

end TNCO
