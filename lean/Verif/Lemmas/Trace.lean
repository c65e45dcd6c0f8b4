import Verif.Spec.Replay
import Mathlib.Algebra.BigOperators.Group.List.Basic
import Mathlib.Data.List.Perm.Basic
import Mathlib.Tactic.Abel
import Mathlib.Data.List.Nodup

/-! What the contractions of a path have to do with the bracketing it leads to. -/

namespace TNCO

/-- Sum over all contractions of a bracketing. -/
def Term.total {R : Type} [AddCommMonoid R] (f : Term → R) : Term → R
  | .tensor _ => 0
  | .pair a b => f (.pair a b) + a.total f + b.total f

theorem perm_two {α : Type} {ts : List α} {i j : ℕ} {a b : α} (hij : i < j) (ha : ts[i]? = some a) (hb : ts[j]? = some b) :
    ts.Perm (a :: b :: (ts.eraseIdx j).eraseIdx i) := by
  obtain ⟨hj, rfl⟩ := List.getElem?_eq_some_iff.1 hb
  have ha' : (ts.eraseIdx j)[i]? = some a := by rw [List.getElem?_eraseIdx_of_lt hij]; exact ha
  obtain ⟨hi, e⟩ := List.getElem?_eq_some_iff.1 ha'
  have h1 := List.getElem_cons_eraseIdx_perm hj
  have h2 := List.getElem_cons_eraseIdx_perm hi
  rw [e] at h2
  exact h1.symm.trans ((h2.symm.cons _).trans (.swap ..))

/-- One step of a path that can be followed. -/
theorem replay_step {ts : List Term} {x y : ℕ} {path : List (ℕ × ℕ)} {F : List Term}
    (h : replay ts ((x, y) :: path) = some F) :
    ∃ a b rest, ts.Perm (a :: b :: rest) ∧ replay (rest ++ [.pair a b]) path = some F ∧
      trace ts ((x, y) :: path) = .pair a b :: trace (rest ++ [.pair a b]) path := by
  simp only [replay] at h
  split at h
  · cases h
  next hxy =>
  split at h
  · next a b ha hb =>
    refine ⟨a, b, _, perm_two (by omega) ha hb, h, ?_⟩
    simp only [trace, ha, hb]
  · cases h

theorem replay_sub {path : List (ℕ × ℕ)} {ts F : List Term} (h : replay ts path = some F) {u a b : Term} (hu : u ∈ F)
    (hs : Term.Sub (.pair a b) u) : (∃ t ∈ ts, Term.Sub (.pair a b) t) ∨ .pair a b ∈ trace ts path := by
  induction path generalizing ts with
  | nil => simp only [replay, Option.some.injEq] at h; subst h; exact Or.inl ⟨u, hu, hs⟩
  | cons s path ih =>
    obtain ⟨x, y⟩ := s
    obtain ⟨c, d, rest, hp, hr, ht⟩ := replay_step h
    rw [ht]
    rcases ih hr with ⟨t, htm, hts⟩ | h'
    · rcases List.mem_append.1 htm with htm | htm
      · exact Or.inl ⟨t, hp.mem_iff.2 (by simp [htm]), hts⟩
      · rw [List.mem_singleton] at htm
        subst htm
        cases hts with
        | refl => exact Or.inr (by simp)
        | left hts => exact Or.inl ⟨c, hp.mem_iff.2 (by simp), hts⟩
        | right hts => exact Or.inl ⟨d, hp.mem_iff.2 (by simp), hts⟩
    · exact Or.inr (by simp [h'])

/-- Starting from single tensors, every part of the result that is a contraction was performed. -/
theorem replay_sub_init {path : List (ℕ × ℕ)} {n : ℕ} {F : List Term} (h : replay (initTerms n) path = some F) {u a b : Term}
    (hu : u ∈ F) (hs : Term.Sub (.pair a b) u) : .pair a b ∈ trace (initTerms n) path := by
  refine (replay_sub h hu hs).resolve_left ?_
  rintro ⟨t, ht, hst⟩
  obtain ⟨i, -, rfl⟩ := List.mem_map.1 ht
  cases hst

theorem trace_total {R : Type} [AddCommMonoid R] (f : Term → R) {path : List (ℕ × ℕ)} {ts F : List Term}
    (h : replay ts path = some F) :
    (F.map (Term.total f)).sum = (ts.map (Term.total f)).sum + ((trace ts path).map f).sum := by
  induction path generalizing ts with
  | nil => simp only [replay, Option.some.injEq] at h; subst h; simp [trace]
  | cons s path ih =>
    obtain ⟨x, y⟩ := s
    obtain ⟨c, d, rest, hp, hr, ht⟩ := replay_step h
    rw [ht, ih hr, (hp.map _).sum_eq]
    simp only [List.map_append, List.sum_append, List.map_cons, List.sum_cons, List.map_nil, List.sum_nil, Term.total]
    abel

theorem trace_total_init {R : Type} [AddCommMonoid R] (f : Term → R) {path : List (ℕ × ℕ)} {n : ℕ} {F : List Term}
    (h : replay (initTerms n) path = some F) : (F.map (Term.total f)).sum = ((trace (initTerms n) path).map f).sum := by
  rw [trace_total f h]
  have : ((initTerms n).map (Term.total f)).sum = 0 := by
    apply List.sum_eq_zero
    intro x hx
    obtain ⟨t, ht, rfl⟩ := List.mem_map.1 hx
    obtain ⟨i, -, rfl⟩ := List.mem_map.1 ht
    rfl
  rw [this, zero_add]

theorem total_same {R : Type} [AddCommMonoid R] {f : Term → R} (hf : ∀ {a b}, Term.Same a b → f a = f b) {a b : Term}
    (h : a.Same b) : a.total f = b.total f := by
  induction h with
  | tensor => rfl
  | pair h1 h2 ih1 ih2 => simp only [Term.total, ih1, ih2, hf (.pair h1 h2)]
  | swap h1 h2 ih1 ih2 => simp only [Term.total, ih1, ih2, hf (.swap h1 h2)]; abel

theorem Term.Sub.trans {a b c : Term} (h : Term.Sub a b) (h' : Term.Sub b c) : Term.Sub a c := by
  induction h' with
  | refl => exact h
  | left _ ih => exact ih.left
  | right _ ih => exact ih.right

theorem Term.Sub.tensors {a b : Term} (h : Term.Sub a b) {k : ℕ} (hk : k ∈ a.tensors) : k ∈ b.tensors := by
  induction h with
  | refl => exact hk
  | left _ ih => simp [Term.tensors, ih]
  | right _ ih => simp [Term.tensors, ih]

theorem Term.Sub.isPair {a b : Term} (h : Term.Sub a b) (ha : a.isPair = true) : b.isPair = true := by
  cases h with
  | refl => exact ha
  | left _ => rfl
  | right _ => rfl

/-- Every contraction performed is part of the result, and so is what was there at the start. -/
theorem trace_sub {path : List (ℕ × ℕ)} {ts F : List Term} (h : replay ts path = some F) {t : Term}
    (ht : t ∈ ts ∨ t ∈ trace ts path) : ∃ u ∈ F, Term.Sub t u := by
  induction path generalizing ts t with
  | nil =>
    simp only [replay, Option.some.injEq] at h; subst h
    rcases ht with ht | ht
    · exact ⟨t, ht, .refl⟩
    · simp [trace] at ht
  | cons s path ih =>
    obtain ⟨x, y⟩ := s
    obtain ⟨c, d, rest, hp, hr, htr⟩ := replay_step h
    rw [htr, List.mem_cons] at ht
    have hcd : ∃ u ∈ F, Term.Sub (.pair c d) u := ih hr (Or.inl (by simp))
    rcases ht with ht | rfl | ht
    · rw [hp.mem_iff, List.mem_cons, List.mem_cons] at ht
      obtain ⟨u, hu, hs⟩ := hcd
      rcases ht with rfl | rfl | ht
      · exact ⟨u, hu, Term.Sub.trans (.left .refl) hs⟩
      · exact ⟨u, hu, Term.Sub.trans (.right .refl) hs⟩
      · exact ih hr (Or.inl (by simp [ht]))
    · exact hcd
    · exact ih hr (Or.inr ht)

theorem replay_tensors {path : List (ℕ × ℕ)} {ts F : List Term} (h : replay ts path = some F) :
    (F.flatMap Term.tensors).Perm (ts.flatMap Term.tensors) := by
  induction path generalizing ts with
  | nil => simp only [replay, Option.some.injEq] at h; subst h; exact .refl _
  | cons s path ih =>
    obtain ⟨x, y⟩ := s
    obtain ⟨c, d, rest, hp, hr, -⟩ := replay_step h
    refine (ih hr).trans (.trans ?_ (hp.flatMap_right _).symm)
    simp only [List.flatMap_append, List.flatMap_cons, List.flatMap_nil, List.append_nil, Term.tensors]
    exact List.perm_append_comm.trans (by simp)

theorem replay_tensors_init {path : List (ℕ × ℕ)} {n : ℕ} {F : List Term} (h : replay (initTerms n) path = some F) :
    (F.flatMap Term.tensors).Perm (List.range n) := by
  have := replay_tensors h
  simpa [initTerms, List.flatMap_map, Term.tensors] using this

/-- A tensor occurs in one of the terms only, and once. -/
theorem replay_disjoint {path : List (ℕ × ℕ)} {n : ℕ} {F : List Term} (h : replay (initTerms n) path = some F) {u v : Term}
    (hu : u ∈ F) (hv : v ∈ F) {k : ℕ} (hku : k ∈ u.tensors) (hkv : k ∈ v.tensors) : u = v := by
  have hn := (replay_tensors_init h).nodup_iff.2 List.nodup_range
  rw [List.nodup_flatMap] at hn
  by_contra hne
  obtain ⟨i, hi, rfl⟩ := List.getElem_of_mem hu
  obtain ⟨j, hj, rfl⟩ := List.getElem_of_mem hv
  have hij : i ≠ j := fun e => hne (by subst e; rfl)
  have hp := List.pairwise_iff_getElem.1 hn.2
  rcases lt_or_gt_of_ne hij with h' | h'
  · exact hp i j hi hj h' hku hkv
  · exact hp j i hj hi h' hkv hku

theorem tensors_nonempty (t : Term) : ∃ k, k ∈ t.tensors := by
  induction t with
  | tensor i => exact ⟨i, by simp [Term.tensors]⟩
  | pair a b ih _ => obtain ⟨k, hk⟩ := ih; exact ⟨k, by simp [Term.tensors, hk]⟩

theorem replay_nodup {path : List (ℕ × ℕ)} {n : ℕ} {F : List Term} (h : replay (initTerms n) path = some F) : F.Nodup := by
  have hn := (replay_tensors_init h).nodup_iff.2 List.nodup_range
  rw [List.nodup_flatMap] at hn
  refine hn.2.imp fun {a b} hab e => ?_
  obtain ⟨k, hk⟩ := tensors_nonempty a
  exact hab hk (e ▸ hk)

theorem trace_isPair {path : List (ℕ × ℕ)} {ts : List Term} {t : Term} (ht : t ∈ trace ts path) : t.isPair = true := by
  induction path generalizing ts with
  | nil => simp [trace] at ht
  | cons s path ih =>
    obtain ⟨x, y⟩ := s
    simp only [trace] at ht
    split at ht
    · rcases List.mem_cons.1 ht with rfl | ht
      · rfl
      · exact ih ht
    · simp at ht

/-- The tensors that a path touches are those of the contracted terms it leaves. -/
theorem touches_iff {path : List (ℕ × ℕ)} {n : ℕ} {F : List Term} (h : replay (initTerms n) path = some F) (k : ℕ) :
    Touches n path k ↔ ∃ u ∈ F, u.isPair = true ∧ k ∈ u.tensors := by
  constructor
  · rintro ⟨t, ht, hk⟩
    obtain ⟨u, hu, hs⟩ := trace_sub h (Or.inr ht)
    exact ⟨u, hu, hs.isPair (trace_isPair ht), hs.tensors hk⟩
  · rintro ⟨u, hu, hp, hk⟩
    cases u with
    | tensor i => cases hp
    | pair a b => exact ⟨_, replay_sub_init h hu .refl, hk⟩

end TNCO
