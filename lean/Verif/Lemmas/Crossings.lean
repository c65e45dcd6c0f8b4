import Verif.Spec.TreeCheck
import Verif.Lemmas.All

/-!
Counting the contractions of an index. In a tree that is valid node by node the index sets are
exact at an index exactly when its contractions are one fewer than its leaves.
-/

namespace TNCO
open PTree

/-- An index at a contraction that is valid by itself: it is kept if one operand has it, and does
not appear from nowhere. -/
def KeepOk (P : ℕ → Bool) (p a b : ℕ) : Prop :=
  (P a ≠ P b → P p = true) ∧ (P p = true → P a = true ∨ P b = true)

variable {P : ℕ → Bool}

theorem carriers_node (p : ℕ) (l r : PTree) : (node p l r).carriers P = l.carriers P + r.carriers P := by
  simp [carriers, PTree.leaves, List.countP_append]

theorem carriers_fork (o : Bool) (p : ℕ) (l r : PTree) : (fork o p l r).carriers P = l.carriers P + r.carriers P := by
  cases o <;> simp [fork, carriers_node, Nat.add_comm]

theorem crossings_fork (o : Bool) (p : ℕ) (l r : PTree) :
    (fork o p l r).crossings P = (if P l.root && P r.root then 1 else 0) + (l.crossings P + r.crossings P) := by
  cases o <;> simp [fork, crossings, Nat.add_comm, Bool.and_comm]

theorem carriers_pos {t : PTree} : 0 < t.carriers P ↔ ∃ p ∈ t.leaves, P p = true := by
  rw [carriers, List.countP_pos_iff]

theorem root_carrier {t : PTree} (h : t.All (KeepOk P)) (hr : P t.root = true) : 0 < t.carriers P := by
  induction t with
  | leaf p =>
    have : P p = true := hr
    simp [carriers, PTree.leaves, this]
  | node p l r ihl ihr =>
    rw [carriers_node]
    rcases h.1.2 hr with h1 | h1
    · have := ihl h.2.1 h1; omega
    · have := ihr h.2.2 h1; omega

theorem crossings_le {t : PTree} (h : t.All (KeepOk P)) :
    (t.carriers P = 0 → t.crossings P = 0) ∧ (0 < t.carriers P → t.crossings P + 1 ≤ t.carriers P) := by
  induction t with
  | leaf p => exact ⟨fun _ => rfl, fun h => by simp only [crossings]; omega⟩
  | node p l r ihl ihr =>
    obtain ⟨l0, l1⟩ := ihl h.2.1
    obtain ⟨r0, r1⟩ := ihr h.2.2
    have hl := root_carrier h.2.1
    have hr := root_carrier h.2.2
    rw [carriers_node]
    simp only [crossings]
    by_cases hb : (P l.root && P r.root) = true
    · rw [if_pos hb]
      rw [Bool.and_eq_true] at hb
      have h1 := hl hb.1
      have h2 := hr hb.2
      have h3 := l1 h1
      have h4 := r1 h2
      constructor <;> intro <;> omega
    · rw [if_neg hb]
      constructor
      · intro h0
        rw [l0 (by omega), r0 (by omega)]
      · intro h0
        rcases Nat.eq_zero_or_pos (l.carriers P) with hz | hz <;>
        rcases Nat.eq_zero_or_pos (r.carriers P) with hy | hy
        · omega
        · have := l0 hz; have := r1 hy; omega
        · have := r0 hy; have := l1 hz; omega
        · have := l1 hz; have := r1 hy; omega

/-- The surplus of leaves over contractions does not decrease from a subtree to the tree. -/
theorem surplus_mono (K : Ctx) (s : PTree) (h : (K.plug s).All (KeepOk P)) :
    s.carriers P + (K.plug s).crossings P ≤ (K.plug s).carriers P + s.crossings P := by
  induction K generalizing s with
  | top => exact le_refl _
  | frame o p u K ih =>
    have h1 := ih (fork o p s u) h
    have h2 := (Ctx.all_plug ..).1 h
    have hu : u.All (KeepOk P) := h2.1.2.1
    simp only [Ctx.plug]
    rw [carriers_fork, crossings_fork] at h1
    have h4 := crossings_le hu
    by_cases hb : (P s.root && P u.root) = true
    · rw [if_pos hb] at h1
      rw [Bool.and_eq_true] at hb
      have := h4.2 (root_carrier hu hb.2)
      omega
    · rw [if_neg hb] at h1
      rcases Nat.eq_zero_or_pos (u.carriers P) with hz | hz
      · have := h4.1 hz; omega
      · have := h4.2 hz; omega
/-- The index at all subtrees: it is there exactly when it occurs below and is needed outside. -/
def ExactAt (P : ℕ → Bool) (o : Prop) (t : PTree) : Prop :=
  ∀ (K : Ctx) (s : PTree), t = K.plug s → (P s.root = true ↔ (∃ p ∈ s.leaves, P p = true) ∧ (o ∨ ∃ p ∈ K.lvs, P p = true))

theorem KeepOk.symm (p a b : ℕ) (h : KeepOk P p a b) : KeepOk P p b a :=
  ⟨fun e => h.1 fun e' => e e'.symm, fun e => (h.2 e).symm⟩

theorem lvs_pos_frame {o : Bool} {p : ℕ} {u : PTree} {K : Ctx} :
    (∃ q ∈ (Ctx.frame o p u K).lvs, P q = true) ↔ 0 < u.carriers P ∨ ∃ q ∈ K.lvs, P q = true := by
  simp only [Ctx.lvs, List.mem_append, or_and_right, exists_or, carriers_pos]

/-- An index missing at the hole and needed outside: one more leaf than contractions is left. -/
theorem surplus_outside (K : Ctx) (s : PTree) (h : (K.plug s).All (KeepOk P)) (hs : P s.root = false)
    (hK : ∃ q ∈ K.lvs, P q = true) :
    s.carriers P + (K.plug s).crossings P + 1 ≤ (K.plug s).carriers P + s.crossings P := by
  induction K generalizing s with
  | top => simp [Ctx.lvs] at hK
  | frame o p u K ih =>
    have h2 := (Ctx.all_plug ..).1 h
    have hu : u.All (KeepOk P) := h2.1.2.1
    have h4 := crossings_le hu
    have hm := surplus_mono K (fork o p s u) h
    have hf : (fork o p s u).crossings P = s.crossings P + u.crossings P := by
      rw [crossings_fork, hs]; simp
    have hc : (fork o p s u).carriers P = s.carriers P + u.carriers P := carriers_fork ..
    simp only [Ctx.plug]
    rcases Nat.eq_zero_or_pos (u.carriers P) with hz | hz
    · have hur : P u.root = false := by
        cases hc : P u.root with
        | false => rfl
        | true => have := root_carrier hu hc; omega
      have hp : P p = false := by
        have hst : KeepOk P p s.root u.root := by
          have := h2.1.1
          cases o
          · exact this.symm
          · exact this
        cases hc : P p with
        | false => rfl
        | true => rcases hst.2 hc with h' | h' <;> simp_all
      have := ih (fork o p s u) h (by simpa using hp) ((lvs_pos_frame.1 hK).resolve_left (by omega))
      have := h4.1 hz
      omega
    · have := h4.2 hz
      omega

/-- The index reaches the root from a subtree, if no leaf outside has it. -/
theorem root_of_hole (K : Ctx) (s : PTree) (h : (K.plug s).All (KeepOk P)) (hK : ¬ ∃ q ∈ K.lvs, P q = true) :
    P (K.plug s).root = P s.root := by
  induction K generalizing s with
  | top => rfl
  | frame o p u K ih =>
    rw [lvs_pos_frame, not_or] at hK
    have h2 := (Ctx.all_plug ..).1 h
    have hu : u.All (KeepOk P) := h2.1.2.1
    have hst : KeepOk P p s.root u.root := by
      have := h2.1.1
      cases o
      · exact this.symm
      · exact this
    have hur : P u.root = false := by
      cases hc : P u.root with
      | false => rfl
      | true => exact absurd (root_carrier hu hc) hK.1
    simp only [Ctx.plug]
    rw [ih (fork o p s u) h hK.2, root_fork]
    cases hc : P s.root with
    | false =>
      cases hp : P p with
      | false => rfl
      | true => rcases hst.2 hp with h' | h' <;> simp_all
    | true => exact hst.1 (by rw [hc, hur]; decide)

/-- One contraction fewer than leaves: the index is exact. -/
theorem exactAt_of_count {t : PTree} {o : Prop} (h : t.All (KeepOk P)) (ho : P t.root = true ↔ o)
    (hc : 0 < t.carriers P → t.crossings P + 1 = t.carriers P) : ExactAt P o t := by
  rintro K s rfl
  have hs : s.All (KeepOk P) := ((Ctx.all_plug ..).1 h).2
  constructor
  · intro hr
    refine ⟨carriers_pos.1 (root_carrier hs hr), ?_⟩
    by_cases hK : ∃ q ∈ K.lvs, P q = true
    · exact Or.inr hK
    · left
      rw [← ho, root_of_hole K s h hK, hr]
  · rintro ⟨h1, h2⟩
    by_contra hr
    rw [Bool.not_eq_true] at hr
    have hL := carriers_pos.2 h1
    have hK : ∃ q ∈ K.lvs, P q = true := by
      rcases h2 with h2 | h2
      · by_contra hK
        rw [← ho, root_of_hole K s h hK, hr] at h2
        exact absurd h2 (by decide)
      · exact h2
    have h3 := surplus_outside K s h hr hK
    have h4 := (crossings_le hs).2 hL
    have h5 : (K.plug s).carriers P = s.carriers P + (K.lvs).countP P := by
      rw [carriers, (Ctx.leaves_plug K s).countP_eq, List.countP_append]; rfl
    have := hc (by omega)
    omega

/-- Exact indices have one contraction fewer than leaves. -/
theorem count_of_exactAt_aux {o : Prop} (s : PTree) (K : Ctx) (h : ExactAt P o (K.plug s)) :
    (s.carriers P = 0 → s.crossings P = 0) ∧ (0 < s.carriers P → s.crossings P + 1 = s.carriers P) := by
  induction s generalizing K with
  | leaf p =>
    refine ⟨fun _ => rfl, fun h => ?_⟩
    have : (leaf p).carriers P ≤ 1 := by
      rw [carriers]; exact List.countP_le_length
    simp only [crossings]; omega
  | node p l r ihl ihr =>
    have hl := h (.frame true p r K) l rfl
    have hr := h (.frame false p l K) r rfl
    obtain ⟨l0, l1⟩ := ihl (.frame true p r K) h
    obtain ⟨r0, r1⟩ := ihr (.frame false p l K) h
    rw [lvs_pos_frame, ← carriers_pos] at hl hr
    rw [carriers_node]
    simp only [crossings]
    rcases Nat.eq_zero_or_pos (l.carriers P) with hz | hz <;>
    rcases Nat.eq_zero_or_pos (r.carriers P) with hy | hy
    · have hb : ¬ (P l.root && P r.root) = true := by
        rw [Bool.and_eq_true, hl]; rintro ⟨⟨h1, -⟩, -⟩; omega
      rw [if_neg hb, l0 hz, r0 hy]
      exact ⟨fun _ => rfl, fun h => by omega⟩
    · have hb : ¬ (P l.root && P r.root) = true := by
        rw [Bool.and_eq_true, hl]; rintro ⟨⟨h1, -⟩, -⟩; omega
      have := r1 hy; have := l0 hz
      rw [if_neg hb]
      constructor <;> intro <;> omega
    · have hb : ¬ (P l.root && P r.root) = true := by
        rw [Bool.and_eq_true, hr]; rintro ⟨-, h1, -⟩; omega
      have := l1 hz; have := r0 hy
      rw [if_neg hb]
      constructor <;> intro <;> omega
    · have hb : (P l.root && P r.root) = true := by
        rw [Bool.and_eq_true, hl, hr]; exact ⟨⟨hz, Or.inr (Or.inl hy)⟩, hy, Or.inr (Or.inl hz)⟩
      have := l1 hz; have := r1 hy
      rw [if_pos hb]
      constructor <;> intro <;> omega

theorem count_of_exactAt {o : Prop} {t : PTree} (h : ExactAt P o t) :
    (t.carriers P = 0 → t.crossings P = 0) ∧ (0 < t.carriers P → t.crossings P + 1 = t.carriers P) :=
  count_of_exactAt_aux t .top h

end TNCO
