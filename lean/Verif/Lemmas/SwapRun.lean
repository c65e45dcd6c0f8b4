import Mathlib.Data.Finset.Card
import Mathlib.Data.Finset.Image
import Mathlib.Data.Finset.Range
import Mathlib.Order.Interval.Finset.Nat
import Mathlib.Tactic.Push

/-!
Helper lemmas: swapping every node of a binary tree with its uncle, one after the other, never
gives back the tree. Only the slots of the nodes are looked at here: the slot of a node is its parent and
whether it is the second child.
-/

namespace TNCO

/-- The slots at all times: before node `t` is swapped, node `x` is in slot `s t x`. There are `N` nodes, the first
`n` are the leaves, `r` is the root. `c t` is the uncle of `t` at time `t`. -/
structure SwapRun (n N r : ℕ) (s : ℕ → ℕ → ℕ × Bool) (Eff : ℕ → Prop) (c : ℕ → ℕ) : Prop where
  inj : ∀ t x y, x < N → y < N → s t x = s t y → x = y
  eff : ∀ t, Eff t ↔ t < N ∧ t ≠ r ∧ (s t t).1 ≠ r
  still : ∀ t x, x < N → ¬ Eff t → s (t + 1) x = s t x
  uncle : ∀ t, Eff t → c t < N ∧ c t ≠ t ∧ c t ≠ (s t t).1 ∧ (s t t).1 < N ∧
    (s t (c t)).1 = (s t (s t t).1).1 ∧ (s t (s t t).1).1 ≠ (s t t).1
  move : ∀ t, Eff t → s (t + 1) t = s t (c t) ∧ s (t + 1) (c t) = s t t ∧
    ∀ x, x < N → x ≠ t → x ≠ c t → s (t + 1) x = s t x
  root : (s 0 r).1 = N
  size : N = 2 * n - 1 ∧ n ≤ r ∧ r < N
  leaf : ∀ x, x < n → ∀ y, y < N → (s 0 y).1 ≠ x
  kids : ∀ x, n ≤ x → x < N → ∃ u w, u ≠ w ∧ u < N ∧ w < N ∧ (s 0 u).1 = x ∧ (s 0 w).1 = x
  big : ∃ y, n ≤ y ∧ y < N ∧ y ≠ r ∧ (s 0 y).1 = r

namespace SwapRun
variable {n N r : ℕ} {s : ℕ → ℕ → ℕ × Bool} {Eff : ℕ → Prop} {c : ℕ → ℕ}

theorem const (H : SwapRun n N r s Eff c) {x t₁ t₂ : ℕ} (hx : x < N) (h : t₁ ≤ t₂)
    (hn : ∀ t, t₁ ≤ t → t < t₂ → Eff t → t ≠ x ∧ c t ≠ x) : s t₂ x = s t₁ x := by
  induction t₂, h using Nat.le_induction with
  | base => rfl
  | succ t ht ih =>
    rw [← ih fun u h1 h2 h3 => hn u h1 (by omega) h3]
    by_cases he : Eff t
    · obtain ⟨h1, h2⟩ := hn t ht (by omega) he
      exact (H.move t he).2.2 x hx (Ne.symm h1) (Ne.symm h2)
    · exact H.still t x hx he

/-- No three children. -/
theorem two (H : SwapRun n N r s Eff c) {t x y z q : ℕ} (hx : x < N) (hy : y < N) (hz : z < N)
    (h1 : (s t x).1 = q) (h2 : (s t y).1 = q) (h3 : (s t z).1 = q) (hxy : x ≠ y) : z = x ∨ z = y := by
  have key : ∀ a b : ℕ, a < N → b < N → (s t a).1 = q → (s t b).1 = q → (s t a).2 = (s t b).2 → a = b :=
    fun a b ha hb h4 h5 h6 => H.inj t a b ha hb (Prod.ext (h4.trans h5.symm) h6)
  by_contra hc
  push Not at hc
  have a1 : (s t x).2 ≠ (s t y).2 := fun h => hxy (key x y hx hy h1 h2 h)
  have a2 : (s t z).2 ≠ (s t x).2 := fun h => hc.1 (key z x hz hx h3 h1 h)
  have a3 : (s t z).2 ≠ (s t y).2 := fun h => hc.2 (key z y hz hy h3 h2 h)
  revert a1 a2 a3
  cases (s t x).2 <;> cases (s t y).2 <;> cases (s t z).2 <;> simp

/-- The run comes back to its start. -/
structure Back (n N r : ℕ) (s : ℕ → ℕ → ℕ × Bool) (Eff : ℕ → Prop) (c : ℕ → ℕ) : Prop extends SwapRun n N r s Eff c where
  back : ∀ x, x < N → s N x = s 0 x

namespace Back

theorem eff_lt (H : Back n N r s Eff c) {d : ℕ} (hd : Eff d) : d < N := ((H.eff d).1 hd).1

/-- Every node that is swapped is the uncle of a later or earlier one. -/
theorem exists_pre (H : Back n N r s Eff c) {d : ℕ} (hd : Eff d) : ∃ b, Eff b ∧ c b = d := by
  by_contra hc
  push Not at hc
  have hN := H.eff_lt hd
  obtain ⟨hcN, hcd, -⟩ := H.uncle d hd
  have h1 : s d d = s 0 d := H.const hN (Nat.zero_le _) fun t _ h2 h3 => ⟨by omega, hc t h3⟩
  have h2 : s N d = s (d + 1) d := H.const hN (by omega) fun t h1 _ h3 => ⟨by omega, hc t h3⟩
  rw [(H.move d hd).1, H.back d hN, ← h1] at h2
  exact hcd (H.inj d _ _ hcN hN h2.symm)

open Classical in
theorem perm (H : Back n N r s Eff c) : (∀ d, Eff d → Eff (c d)) ∧ ∀ a b, Eff a → Eff b → c a = c b → a = b := by
  let E := (Finset.range N).filter Eff
  have hE : ∀ d, d ∈ E ↔ Eff d := fun d => by
    simp only [E, Finset.mem_filter, Finset.mem_range]
    exact ⟨fun h => h.2, fun h => ⟨H.eff_lt h, h⟩⟩
  have hsub : E ⊆ E.image c := by
    intro d hd
    obtain ⟨b, hb, hbd⟩ := H.exists_pre ((hE d).1 hd)
    exact Finset.mem_image.2 ⟨b, (hE b).2 hb, hbd⟩
  have heq := Finset.eq_of_subset_of_card_le hsub Finset.card_image_le
  have hinj : Set.InjOn c E := Finset.card_image_iff.1 (by rw [← heq])
  refine ⟨fun d hd => ?_, fun a b ha hb h => hinj (by simpa using (hE a).2 ha) (by simpa using (hE b).2 hb) h⟩
  rw [← hE, heq]
  exact Finset.mem_image_of_mem _ ((hE d).2 hd)

theorem pair_min (H : Back n N r s Eff c) {v b : ℕ} (hv : Eff v) (hb : Eff b) (hbv : c b = v) (h1 : v < c v) (h2 : v < b) :
    c (c v) = v := by
  obtain ⟨hEc, hinj⟩ := H.perm
  have ha := hEc v hv
  have hvN := H.eff_lt hv
  have haN := H.eff_lt ha
  have hbN := H.eff_lt hb
  have hpre : ∀ t, Eff t → c t = v → t = b := fun t ht h => hinj t b ht hb (h.trans hbv.symm)
  have hprea : ∀ t, Eff t → c t = c v → t = v := fun t ht h => hinj t v ht hv h
  have e1 : s v v = s 0 v := H.const hvN (Nat.zero_le _) fun t _ h4 h5 => ⟨by omega, fun h => by have := hpre t h5 h; omega⟩
  have e2 : s v (c v) = s 0 (c v) := H.const haN (Nat.zero_le _) fun t _ h4 h5 => ⟨by omega, fun h => by have := hprea t h5 h; omega⟩
  obtain ⟨m1, m2, -⟩ := H.move v hv
  rw [e2] at m1
  rw [e1] at m2
  by_contra hne
  have hab : c v ≠ b := by rintro h; exact hne (by rw [h]; exact hbv)
  rcases Nat.lt_or_gt_of_ne hab with hlt | hgt
  · have e3 : s (c v) v = s (v + 1) v := H.const hvN (by omega) fun t h3 h4 h5 => ⟨by omega, fun h => by have := hpre t h5 h; omega⟩
    have e4 : s N (c v) = s (c v + 1) (c v) := H.const haN (by omega) fun t h3 h4 h5 =>
      ⟨by omega, fun h => by have := hprea t h5 h; omega⟩
    rw [(H.move _ ha).1, H.back _ haN, ← m1, ← e3] at e4
    exact hne (H.inj _ _ _ hvN (H.eff_lt (hEc _ ha)) e4).symm
  · obtain ⟨-, m3, -⟩ := H.move b hb
    rw [hbv] at m3
    have e3 : s N v = s (b + 1) v := H.const hvN (by omega) fun t h3 h4 h5 => ⟨by omega, fun h => by have := hpre t h5 h; omega⟩
    have e4 : s b (c v) = s (v + 1) (c v) := H.const haN (by omega) fun t h3 h4 h5 =>
      ⟨by omega, fun h => by have := hprea t h5 h; omega⟩
    rw [H.back _ hvN, m3, ← m2, ← e4] at e3
    exact hab (H.inj _ _ _ haN hbN e3)

/-- The swapped nodes come in pairs. -/
theorem pair (H : Back n N r s Eff c) {x : ℕ} (hx : Eff x) : c (c x) = x := by
  obtain ⟨hEc, hinj⟩ := H.perm
  induction x using Nat.strong_induction_on with
  | _ x ih =>
    obtain ⟨b, hb, hbx⟩ := H.exists_pre hx
    have hcx := (H.uncle x hx).2.1
    have hbne : b ≠ x := by rintro rfl; exact hcx hbx
    rcases Nat.lt_or_gt_of_ne hcx with h1 | h1
    · exact hinj _ _ (hEc _ (hEc _ hx)) hx (ih _ h1 (hEc x hx))
    · rcases Nat.lt_or_gt_of_ne hbne with h2 | h2
      · have := ih b h2 hb
        rw [hbx] at this
        rw [this, hbx]
      · exact H.pair_min hx hb hbx h1 h2

theorem touch (H : Back n N r s Eff c) {x t : ℕ} (hx : Eff x) (ht : Eff t) (h : t ≠ x) (h' : t ≠ c x) : t ≠ x ∧ c t ≠ x :=
  ⟨h, fun hc => h' (by rw [← hc, H.pair ht])⟩

theorem before (H : Back n N r s Eff c) {x t : ℕ} (hx : Eff x) (h1 : t ≤ x) (h2 : t ≤ c x) : s t x = s 0 x :=
  H.const (H.eff_lt hx) (Nat.zero_le _) fun _ _ h4 h5 => H.touch hx h5 (by omega) (by omega)

theorem after (H : Back n N r s Eff c) {x t : ℕ} (hx : Eff x) (h1 : x < t) (h2 : c x < t) (h3 : t ≤ N) : s t x = s 0 x := by
  rw [← H.back x (H.eff_lt hx)]
  exact (H.const (H.eff_lt hx) h3 fun _ h4 _ h5 => H.touch hx h5 (by omega) (by omega)).symm

theorem opened (H : Back n N r s Eff c) {x t : ℕ} (hx : Eff x) (h1 : x < t ∧ t ≤ c x ∨ c x < t ∧ t ≤ x) : s t x = s 0 (c x) := by
  have hc := H.perm.1 x hx
  have hcc := H.pair hx
  have hxN := H.eff_lt hx
  rcases h1 with ⟨h1, h2⟩ | ⟨h1, h2⟩
  · rw [H.const hxN h1 fun u h3 h4 h5 => H.touch hx h5 (by omega) (by omega), (H.move x hx).1]
    exact H.before hc (by omega) (by omega)
  · rw [H.const hxN h1 fun u h3 h4 h5 => H.touch hx h5 (by omega) (by omega)]
    have := (H.move (c x) hc).2.1
    rw [hcc] at this
    rw [this]
    exact H.before hc (by omega) (by omega)

theorem not_eff (H : Back n N r s Eff c) {x t : ℕ} (hxN : x < N) (hx : ¬ Eff x) : s t x = s 0 x :=
  H.const hxN (Nat.zero_le _) fun u _ _ h5 => ⟨fun h => hx (h ▸ h5), fun h => hx (h ▸ H.perm.1 u h5)⟩

theorem eff_of (H : Back n N r s Eff c) {x : ℕ} (hxN : x < N) (hr : x ≠ r) (hp : (s 0 x).1 ≠ r) : Eff x := by
  by_contra hx
  have := H.not_eff (t := x) hxN hx
  exact hx ((H.eff x).2 ⟨hxN, hr, by rw [this]; exact hp⟩)

/-- The first swap of a pair: `d` is moved up past `B`, and `c d` comes back past it. -/
theorem opening (H : Back n N r s Eff c) {d B : ℕ} (hd : Eff d) (hlt : d < c d) (hB : (s 0 d).1 = B) :
    B < N ∧ c d ≠ B ∧ (s d B).1 = (s 0 (c d)).1 ∧ (s (c d) B).1 = (s 0 (c d)).1 ∧ (s 0 (c d)).1 ≠ B ∧ B ≠ r := by
  have hc := H.perm.1 d hd
  have hcc := H.pair hd
  have e1 : s d d = s 0 d := H.before hd le_rfl hlt.le
  have e2 : s d (c d) = s 0 (c d) := H.before hc hlt.le (by omega)
  have e3 : s (c d) (c d) = s 0 d := by rw [H.opened hc (by omega), hcc]
  have e4 : s (c d) d = s 0 (c d) := H.opened hd (by omega)
  obtain ⟨-, -, u3, u4, u5, u6⟩ := H.uncle d hd
  obtain ⟨-, -, -, -, v5, -⟩ := H.uncle _ hc
  rw [hcc, e4, e3, hB] at v5
  rw [e1, hB] at u3 u4 u6
  rw [e1, e2, hB] at u5
  have := ((H.eff d).1 hd).2.2
  rw [e1, hB] at this
  exact ⟨u4, u3, u5.symm, v5.symm, by rw [u5]; exact u6, this⟩

theorem parent_ge (H : Back n N r s Eff c) {x B : ℕ} (hx : x < N) (hB : (s 0 x).1 = B) : n ≤ B := by
  by_contra h
  exact H.leaf B (by omega) x hx hB

/-- An inner node changes its slot before time `n` only as the uncle of a leaf. -/
theorem inner_touch (H : Back n N r s Eff c) {B t₁ t₂ : ℕ} (hB : B < N) (hn : n ≤ B) (h12 : t₁ ≤ t₂) (h2 : t₂ ≤ n)
    (h : (s t₁ B).1 ≠ (s t₂ B).1) : ∃ g, t₁ ≤ g ∧ g < t₂ ∧ Eff g ∧ c g = B ∧ g < B ∧ (∀ t, t ≤ g → s t B = s 0 B) ∧
      ∀ t, g < t → t ≤ n → s t B = s 0 g := by
  by_cases he : Eff B
  · have hc := H.perm.1 B he
    have hcc := H.pair he
    by_cases hg : t₁ ≤ c B ∧ c B < t₂
    · exact ⟨c B, hg.1, hg.2, hc, hcc, by omega, fun t ht => H.before he (by omega) (by omega),
        fun t ht ht' => H.opened he (by omega)⟩
    · exact absurd (congrArg Prod.fst (H.const hB h12 fun u h3 h4 h5 => H.touch he h5 (by omega) (by omega))).symm h
  · exact absurd ((congrArg Prod.fst (H.not_eff hB he)).trans (congrArg Prod.fst (H.not_eff hB he)).symm) h

/-- If two leaves are a pair, the sibling of the first is an inner node, and it begins a pair of inner nodes. -/
theorem sibling (H : Back n N r s Eff c) {d e : ℕ} (hd : Eff d) (hlt : d < c d) (hcn : c d < n) (he : e < N) (hne : e ≠ d)
    (hp : (s 0 e).1 = (s 0 d).1) : n ≤ e ∧ Eff e ∧ e < c e := by
  obtain ⟨B, hB⟩ : ∃ B, (s 0 d).1 = B := ⟨_, rfl⟩
  obtain ⟨A, hA⟩ : ∃ A, (s 0 (c d)).1 = A := ⟨_, rfl⟩
  rw [hB] at hp
  obtain ⟨b1, b2, b3, b4, b5, b6⟩ := H.opening hd hlt hB
  rw [hA] at b3 b4 b5
  have hdN := H.eff_lt hd
  have hBn := H.parent_ge hdN hB
  have hc := H.perm.1 d hd
  have hcN := H.eff_lt hc
  have hcc := H.pair hd
  have hnN : n ≤ N := by have := H.size; omega
  have hec : e ≠ c d := by rintro rfl; exact b5 (hA ▸ hp)
  have heE : Eff e := H.eff_of he (by rintro rfl; rw [H.root] at hp; omega) (by rw [hp]; exact b6)
  have hceE := H.perm.1 e heE
  have hcce := H.pair heE
  have hceN := H.eff_lt hceE
  have n1 : c e ≠ d := fun h => hec (by rw [← hcce, h])
  have n2 : c e ≠ c d := fun h => hne (by rw [← hcce, h, hcc])
  have n3 : c e ≠ e := (H.uncle e heE).2.1
  -- the slot of `d` below `B` is taken by `d` or `c d`
  have hopen : e < c e := by
    by_contra hge
    have hgt : c e < e := by omega
    have hp' : (s 0 (c (c e))).1 = B := by rw [hcce]; exact hp
    obtain ⟨B2, hB2⟩ : ∃ B2, (s 0 (c e)).1 = B2 := ⟨_, rfl⟩
    obtain ⟨o1, o2, o3, -, -, -⟩ := H.opening hceE (by omega) hB2
    rw [hp'] at o3
    rw [hcce] at o2
    have g1 : (s (c e) e).1 = B := by rw [H.before heE (by omega) le_rfl]; exact hp
    have hB2n := H.parent_ge hceN hB2
    by_cases h1 : c e ≤ d ∨ c d < c e
    · have g2 : (s (c e) d).1 = B := by
        rcases h1 with h1 | h1
        · rw [H.before hd h1 (by omega)]; exact hB
        · rw [H.after hd (by omega) h1 (by omega)]; exact hB
      rcases H.two he hdN o1 g1 g2 o3 hne with h | h
      · exact o2 h.symm
      · omega
    · have g2 : (s (c e) (c d)).1 = B := by rw [H.opened hc (by omega), hcc]; exact hB
      rcases H.two he hcN o1 g1 g2 o3 hec with h | h
      · exact o2 h.symm
      · omega
  refine ⟨?_, heE, hopen⟩
  by_contra hen
  obtain ⟨o1, o2, o3, -, -, -⟩ := H.opening heE hopen hp
  obtain ⟨Z, hZ⟩ : ∃ Z, (s 0 (c e)).1 = Z := ⟨_, rfl⟩
  rw [hZ] at o3
  have heB : e ≠ B := by omega
  have hdB : d ≠ B := by omega
  have hcB : c d ≠ B := by omega
  rcases Nat.lt_or_gt_of_ne hne with hed | hed
  · -- who has moved up to the place beside `B` after time `e`
    have stay : ∀ t, e < t → t ≤ n → t ≠ c e → ∃ z, z < N ∧ (s t z).1 = Z ∧ z ≠ B ∧ (z = e ∨ z = c e ∧ z < t) := by
      intro t h1 h2 h3
      by_cases h4 : t ≤ c e
      · exact ⟨e, he, by rw [H.opened heE (by omega)]; exact hZ, heB, .inl rfl⟩
      · exact ⟨c e, hceN, by rw [H.after hceE (by omega) (by omega) (by omega)]; exact hZ, o2, .inr ⟨rfl, by omega⟩⟩
    by_cases hZA : (s e B).1 = (s d B).1
    · rw [o3, b3] at hZA
      obtain ⟨z, z1, z2, z3, z4⟩ := stay d hed (by omega) (Ne.symm n1)
      have g1 : (s d (c d)).1 = A := by rw [H.before hc (by omega) (by omega)]; exact hA
      rw [hZA] at z2
      rcases H.two b1 hcN z1 b3 g1 z2 (Ne.symm hcB) with h | h
      · exact z3 h
      · rcases z4 with rfl | ⟨rfl, -⟩
        · exact hec h
        · exact n2 h
    · obtain ⟨g, g1, g2, g3, g4, g5, g6, -⟩ := H.inner_touch b1 hBn hed.le (by omega) hZA
      obtain ⟨B2, hB2⟩ : ∃ B2, (s 0 g).1 = B2 := ⟨_, rfl⟩
      obtain ⟨p1, p2, p3, -, -, -⟩ := H.opening g3 (by omega) hB2
      have hBZ : (s 0 B).1 = Z := by rw [← g6 e g1]; exact o3
      rw [g4] at p2 p3
      rw [hBZ] at p3
      have hB2n := H.parent_ge (H.eff_lt g3) hB2
      have hge : g ≠ e := by rintro rfl; exact o2 g4
      have hgce : g ≠ c e := by rintro rfl; rw [hcce] at g4; exact heB g4
      obtain ⟨z, z1, z2, z3, z4⟩ := stay g (by omega) (by omega) hgce
      have hBg : (s g B).1 = Z := by rw [g6 g le_rfl]; exact hBZ
      rcases H.two b1 z1 p1 hBg z2 p3 (Ne.symm z3) with h | h
      · exact p2 h.symm
      · rcases z4 with rfl | ⟨-, z4⟩ <;> omega
  · -- who is beside `B` at time `e`, if `B` has not moved
    have beside : ∀ t, d < t → t ≤ n → ∃ z, z < N ∧ (s t z).1 = A ∧ z ≠ B ∧ (z = d ∨ z = c d) := by
      intro t h1 h2
      by_cases h4 : t ≤ c d
      · exact ⟨d, hdN, by rw [H.opened hd (by omega)]; exact hA, hdB, .inl rfl⟩
      · exact ⟨c d, hcN, by rw [H.after hc (by omega) (by omega) (by omega)]; exact hA, hcB, .inr rfl⟩
    by_cases hZA : (s e B).1 = A
    · rw [o3] at hZA
      obtain ⟨z, z1, z2, z3, z4⟩ := beside e hed (by omega)
      have g1 : (s e (c e)).1 = A := by rw [H.before hceE (by omega) (by omega), hZ, hZA]
      rcases H.two b1 z1 hceN (by rw [o3, hZA]) z2 g1 (Ne.symm z3) with h | h
      · exact o2 h
      · rcases z4 with rfl | rfl
        · exact n1 h
        · exact n2 h
    · have hce : c d < e := by
        by_contra h1
        obtain ⟨g, g1, g2, g3, g4, g5, g6, g7⟩ := H.inner_touch (t₁ := d) b1 hBn hed.le (by omega) (by rw [b3]; exact Ne.symm hZA)
        have e1 := g7 (c d) (by omega) (by omega)
        have e2 := g7 e (by omega) (by omega)
        rw [e2, ← e1, b4] at hZA
        exact hZA rfl
      obtain ⟨g, g1, g2, g3, g4, g5, g6, -⟩ := H.inner_touch (t₁ := c d) b1 hBn hce.le (by omega) (by rw [b4]; exact Ne.symm hZA)
      obtain ⟨B2, hB2⟩ : ∃ B2, (s 0 g).1 = B2 := ⟨_, rfl⟩
      obtain ⟨p1, p2, p3, -, -, -⟩ := H.opening g3 (by omega) hB2
      have hBA : (s 0 B).1 = A := by rw [← g6 _ g1]; exact b4
      rw [g4] at p2 p3
      rw [hBA] at p3
      have hB2n := H.parent_ge (H.eff_lt g3) hB2
      have hgc : g ≠ c d := by rintro rfl; rw [hcc] at g4; exact hdB g4
      have hBg : (s g B).1 = A := by rw [g6 g le_rfl]; exact hBA
      obtain ⟨z, z1, z2, z3, z4⟩ := beside g (by omega) (by omega)
      rcases H.two b1 z1 p1 hBg z2 p3 (Ne.symm z3) with h | h
      · exact p2 h.symm
      · rcases z4 with rfl | rfl <;> omega

open Classical in
/-- There are more leaves to pair than inner nodes. -/
theorem false (H : Back n N r s Eff c) : False := by
  obtain ⟨y, y1, y2, y3, y4⟩ := H.big
  obtain ⟨hN, hr1, hr2⟩ := H.size
  have hsib : ∀ d, ∃ e, Eff d → d < c d → e < N ∧ e ≠ d ∧ (s 0 e).1 = (s 0 d).1 := by
    intro d
    by_cases hd : Eff d ∧ d < c d
    · obtain ⟨u, w, k1, k2, k3, k4, k5⟩ := H.kids _ (H.parent_ge (H.eff_lt hd.1) rfl) (H.opening hd.1 hd.2 rfl).1
      by_cases hu : u = d
      · exact ⟨w, fun _ _ => ⟨k3, by rw [← hu]; exact Ne.symm k1, k5⟩⟩
      · exact ⟨u, fun _ _ => ⟨k2, hu, k4⟩⟩
    · exact ⟨0, fun h h' => absurd ⟨h, h'⟩ hd⟩
  choose sib hsib using hsib
  have hS : ∀ d, Eff d → d < c d → c d < n → n ≤ sib d ∧ Eff (sib d) ∧ sib d < c (sib d) := by
    intro d h1 h2 h3
    obtain ⟨a, b, e⟩ := hsib d h1 h2
    exact H.sibling h1 h2 h3 a b e
  have hSinj : ∀ a b, Eff a → a < c a → Eff b → b < c b → sib a = sib b → a = b := by
    intro a b ha ha' hb hb' h
    obtain ⟨a1, a2, a3⟩ := hsib a ha ha'
    obtain ⟨b1, b2, b3⟩ := hsib b hb hb'
    by_contra hne
    rcases H.two (t := 0) (H.eff_lt ha) (H.eff_lt hb) a1 rfl (by rw [← b3, ← h, a3]) a3 hne with h1 | h1
    · exact a2 h1
    · exact b2 (by rw [← h]; exact h1)
  have hne : ∀ x, Eff x → c x ≠ x := fun x hx => (H.uncle x hx).2.1
  have hcE : ∀ x, Eff x → Eff (c x) := H.perm.1
  have hcc : ∀ x, Eff x → c (c x) = x := fun x hx => H.pair hx
  let φ : ℕ → ℕ := fun x => if n ≤ c x then c x else if x < c x then sib x else c (sib (c x))
  -- what the image of a leaf looks like
  have hφ : ∀ x, Eff x → x < n → n ≤ φ x ∧ Eff (φ x) ∧
      (n ≤ c x ∧ φ x = c x ∨ c x < n ∧ x < c x ∧ φ x = sib x ∨ c x < n ∧ c x < x ∧ φ x = c (sib (c x))) := by
    intro x hx hxn
    have h1 := hne x hx
    by_cases h2 : n ≤ c x
    · have : φ x = c x := if_pos h2
      rw [this]
      exact ⟨h2, hcE x hx, .inl ⟨h2, rfl⟩⟩
    · by_cases h3 : x < c x
      · have : φ x = sib x := by simp only [φ, if_neg h2, if_pos h3]
        rw [this]
        obtain ⟨a, b, -⟩ := hS x hx h3 (by omega)
        exact ⟨a, b, .inr (.inl ⟨by omega, h3, rfl⟩)⟩
      · have : φ x = c (sib (c x)) := by simp only [φ, if_neg h2, if_neg h3]
        rw [this]
        obtain ⟨a, b, e⟩ := hS (c x) (hcE x hx) (by rw [hcc x hx]; omega) (by rw [hcc x hx]; exact hxn)
        exact ⟨by omega, hcE _ b, .inr (.inr ⟨by omega, by omega, rfl⟩)⟩
  have hS' : ∀ x, Eff x → c x < n → x < n → c x < x → n ≤ sib (c x) ∧ Eff (sib (c x)) ∧ sib (c x) < c (sib (c x)) :=
    fun x hx _ hxn hlt => hS (c x) (hcE x hx) (by rw [hcc x hx]; exact hlt) (by rw [hcc x hx]; exact hxn)
  have hφi : ∀ a b, Eff a → a < n → Eff b → b < n → φ a = φ b → a = b := by
    intro a b ha han hb hbn h
    have hinj := H.perm.2
    obtain ⟨-, -, ha3⟩ := hφ a ha han
    obtain ⟨-, -, hb3⟩ := hφ b hb hbn
    have ca := hcc a ha
    have cb := hcc b hb
    rcases ha3 with ⟨a1, a2⟩ | ⟨a1, a2, a3⟩ | ⟨a1, a2, a3⟩ <;> rcases hb3 with ⟨b1, b2⟩ | ⟨b1, b2, b3⟩ | ⟨b1, b2, b3⟩
    · exact hinj a b ha hb (by rw [← a2, h, b2])
    · obtain ⟨q1, q2, q3⟩ := hS b hb b2 b1
      rw [a2, b3] at h
      rw [← h, ca] at q3
      omega
    · obtain ⟨q1, q2, q3⟩ := hS' b hb b1 hbn b2
      rw [a2, b3] at h
      rw [← hcc _ q2, ← h, ca] at q1
      omega
    · obtain ⟨q1, q2, q3⟩ := hS a ha a2 a1
      rw [a3, b2] at h
      rw [h, cb] at q3
      omega
    · exact hSinj a b ha a2 hb b2 (by rw [← a3, h, b3])
    · obtain ⟨q1, q2, q3⟩ := hS a ha a2 a1
      obtain ⟨r1, r2, r3⟩ := hS' b hb b1 hbn b2
      rw [a3, b3] at h
      rw [h, hcc _ r2] at q3
      omega
    · obtain ⟨q1, q2, q3⟩ := hS' a ha a1 han a2
      rw [a3, b2] at h
      rw [← hcc _ q2, h, cb] at q1
      omega
    · obtain ⟨q1, q2, q3⟩ := hS b hb b2 b1
      obtain ⟨r1, r2, r3⟩ := hS' a ha a1 han a2
      rw [a3, b3] at h
      rw [← h, hcc _ r2] at q3
      omega
    · obtain ⟨q1, q2, q3⟩ := hS' a ha a1 han a2
      obtain ⟨r1, r2, r3⟩ := hS' b hb b1 hbn b2
      rw [a3, b3] at h
      have h1 := hinj _ _ q2 r2 h
      have h2 := hSinj (c a) (c b) (hcE a ha) (by omega) (hcE b hb) (by omega) h1
      exact hinj a b ha hb h2
  have hcard : ((Finset.range n).filter Eff).card ≤ ((Finset.Ico n N).erase r).card := by
    refine Finset.card_le_card_of_injOn φ ?_ ?_
    · intro x hx
      have hx' := Finset.mem_filter.1 hx
      obtain ⟨h1, h2, -⟩ := hφ x hx'.2 (Finset.mem_range.1 hx'.1)
      exact Finset.mem_erase.2 ⟨((H.eff _).1 h2).2.1, Finset.mem_Ico.2 ⟨h1, H.eff_lt h2⟩⟩
    · intro a ha b hb h
      have ha' := Finset.mem_filter.1 ha
      have hb' := Finset.mem_filter.1 hb
      exact hφi a b ha'.2 (Finset.mem_range.1 ha'.1) hb'.2 (Finset.mem_range.1 hb'.1) h
  have hout : ((Finset.range n).filter fun x => ¬ Eff x).card ≤ 1 := by
    rw [Finset.card_le_one]
    intro a ha b hb
    have ha' := Finset.mem_filter.1 ha
    have hb' := Finset.mem_filter.1 hb
    have han := Finset.mem_range.1 ha'.1
    have hbn := Finset.mem_range.1 hb'.1
    have ha3 : (s 0 a).1 = r := by
      by_contra h
      exact ha'.2 (H.eff_of (by omega) (by omega) h)
    have hb3 : (s 0 b).1 = r := by
      by_contra h
      exact hb'.2 (H.eff_of (by omega) (by omega) h)
    by_contra hab
    rcases H.two (by omega) (by omega) y2 ha3 hb3 y4 hab with h | h <;> omega
  have hsum := Finset.card_filter_add_card_filter_not (s := Finset.range n) Eff
  rw [Finset.card_erase_of_mem (Finset.mem_Ico.2 ⟨hr1, hr2⟩), Nat.card_Ico] at hcard
  rw [Finset.card_range] at hsum
  omega

end Back
end SwapRun
end TNCO
