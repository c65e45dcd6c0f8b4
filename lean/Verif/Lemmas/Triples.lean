import Verif.Lemmas.Linear
import Verif.Model.MergeSplit

/-! From a path in positions to contractions of labels. -/

namespace TNCO
namespace Linear
variable {α : Type} [DecidableEq α]

/-- The contractions of a path; step `m` makes label `new m`. -/
def triples (new : ℕ → α) : ℕ → List α → List (ℕ × ℕ) → Option (List (α × α × α))
  | _, _, [] => some []
  | m, pos, (x, y) :: path =>
    match popPair pos x y with
    | none => none
    | some (a, b, rest) => (triples new (m + 1) (rest ++ [new m]) path).map fun c => (a, b, new m) :: c

theorem popPair_nodup {L : List α} (hn : L.Nodup) {x y : ℕ} (hxy : x ≠ y) {a b : α} {rest : List α}
    (h : popPair L x y = some (a, b, rest)) :
    a ∈ L ∧ b ∈ L ∧ a ≠ b ∧ rest = (L.erase a).erase b ∧ L.idxOf a = min x y ∧ L.idxOf b = max x y := by
  have hp := popPair_perm h
  have hnd := hp.nodup_iff.1 hn
  simp only [List.nodup_cons, List.mem_cons, not_or] at hnd
  have ha : a ∈ L := hp.mem_iff.2 (by simp)
  have hb : b ∈ L := hp.mem_iff.2 (by simp)
  refine ⟨ha, hb, hnd.1.1, ?_⟩
  unfold popPair at h
  split at h
  · cases h
  next v hv =>
    split at h
    · cases h
    next u hu =>
      rw [List.getElem?_eraseIdx_of_lt (by omega)] at hu
      simp only [Option.some.injEq, Prod.mk.injEq] at h
      obtain ⟨rfl, rfl, rfl⟩ := h
      obtain ⟨hlt, e⟩ := List.getElem?_eq_some_iff.1 hv
      obtain ⟨hlt', e'⟩ := List.getElem?_eq_some_iff.1 hu
      have i1 : L.idxOf v = max x y := by rw [← e]; exact hn.idxOf_getElem _ hlt
      have i2 : L.idxOf u = min x y := by rw [← e']; exact hn.idxOf_getElem _ hlt'
      have := eraseIdx_pair hn ha hb hnd.1.1
      rw [i1, i2, show max (min x y) (max x y) = max x y by omega,
        show min (min x y) (max x y) = min x y by omega] at this
      exact ⟨this, i2, i1⟩

theorem triples_spec (new : ℕ → α) (path : List (ℕ × ℕ)) (m : ℕ) (L : List α) (hn : L.Nodup)
    (hnew : ∀ j, m ≤ j → j < m + path.length → new j ∉ L)
    (hinj : ∀ j k, m ≤ j → j < m + path.length → m ≤ k → k < m + path.length → new j = new k → j = k)
    (τ : α → Term) (F : List Term) (hr : replay (L.map τ) path = some F) :
    ∃ c, triples new m L path = some c ∧ Ok L c ∧ made c = (List.range' m path.length).map new ∧
      F = (final L c).map (vals τ c) ∧ trace (L.map τ) path = prods τ c := by
  induction path generalizing m L τ with
  | nil =>
    simp only [replay, Option.some.injEq] at hr
    exact ⟨[], rfl, trivial, rfl, hr.symm, rfl⟩
  | cons s path ih =>
    obtain ⟨x, y⟩ := s
    have hxy : x ≠ y := by
      intro e; simp [replay, e] at hr
    rw [replay_cons hxy, popPair_map] at hr
    cases hp : popPair L x y with
    | none => rw [hp] at hr; simp at hr
    | some r =>
      obtain ⟨a, b, rest⟩ := r
      obtain ⟨ha, hb, hab, hrest, -, -⟩ := popPair_nodup hn hxy hp
      rw [hp] at hr
      simp only [Option.map_some, Option.bind_some] at hr
      have hz : new m ∉ L := hnew m (le_refl _) (by simp)
      have em : (rest ++ [new m]).map (Function.update τ (new m) (.pair (τ a) (τ b))) =
          rest.map τ ++ [.pair (τ a) (τ b)] := by
        rw [List.map_append, List.map_singleton, Function.update_self]
        congr 1
        refine List.map_congr_left fun w hw => Function.update_of_ne ?_ _ _
        rintro rfl
        rw [hrest] at hw
        exact hz (List.mem_of_mem_erase (List.mem_of_mem_erase hw))
      rw [← em] at hr
      have hst : rest ++ [new m] = stepL L a b (new m) := by rw [hrest]; rfl
      obtain ⟨c, h1, h2, h3, h4, h5⟩ := ih (m + 1) (rest ++ [new m]) (by rw [hst]; exact nodup_stepL hn hz)
        (by
          intro j hj hj' hm
          rw [hst, mem_stepL hn] at hm
          rcases hm with h | h
          · exact hnew j (by omega) (by simp; omega) h.1
          · have := hinj j m (by omega) (by simp; omega) (le_refl _) (by simp) h
            omega)
        (fun j k h1 h2 h3 h4 => hinj j k (by omega) (by simp; omega) (by omega) (by simp; omega)) _ hr
      refine ⟨(a, b, new m) :: c, ?_, ⟨ha, hb, hab, hz, hst ▸ h2⟩, ?_, ?_, ?_⟩
      · simp only [triples, hp, h1]; rfl
      · simp only [made, List.map_cons, List.length_cons, List.range'_succ] at h3 ⊢
        rw [h3]
      · rw [h4, hst]; rfl
      · rw [trace_cons hxy, popPair_map, hp]
        simp only [Option.map_some]
        rw [← em, h5]; rfl

theorem Fresh.of_made {new : ℕ → α} {m l : ℕ} {L : List α} {c} (h : made c = (List.range' m l).map new)
    (hnew : ∀ j, m ≤ j → j < m + l → new j ∉ L)
    (hinj : ∀ j k, m ≤ j → j < m + l → m ≤ k → k < m + l → new j = new k → j = k) : Fresh L c := by
  refine ⟨?_, ?_⟩
  · rw [h]
    refine (List.nodup_map_iff_inj_on List.nodup_range').2 ?_
    intro j hj k hk e
    rw [List.mem_range'_1] at hj hk
    exact hinj j k hj.1 hj.2 hk.1 hk.2 e
  · intro z hz
    rw [h] at hz
    obtain ⟨j, hj, rfl⟩ := List.mem_map.1 hz
    rw [List.mem_range'_1] at hj
    exact hnew j hj.1 hj.2

end Linear
end TNCO
