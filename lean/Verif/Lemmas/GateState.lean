import Verif.Spec.CircuitLoad
import Verif.Lemmas.Unique
import Verif.Lemmas.NDArray
import Mathlib.Data.List.Nodup

/-! Initial and final states. -/

namespace TNCO
variable {Q K : Type} [DecidableEq Q] [Field K] [StarRing K] [DecidableEq K]

omit [StarRing K] [DecidableEq K] in
theorem validToken_spec (r : K) (s : String) :
    (validToken r s = none ∧ tokenVec r s = none ∧ s ∉ ["0", "1", "+", "-"]) ∨
      (∃ a v, validToken r s = some a ∧ tokenVec r s = some v ∧ s ∈ ["0", "1", "+", "-"] ∧ a.shape = [2] ∧ ∀ k, a.data k = v k) := by
  unfold validToken tokenVec
  by_cases h0 : s = "0"
  · subst h0; right
    exact ⟨_, _, rfl, rfl, by simp, rfl, fun k => by simp⟩
  by_cases h1 : s = "1"
  · subst h1; right
    exact ⟨_, _, rfl, rfl, by simp, rfl, fun k => by simp⟩
  by_cases h2 : s = "+"
  · subst h2; right
    exact ⟨_, _, rfl, rfl, by simp, rfl, fun k => by simp⟩
  by_cases h3 : s = "-"
  · subst h3; right
    exact ⟨_, _, rfl, rfl, by simp, rfl, fun k => by simp⟩
  left
  rw [if_neg h0, if_neg h1, if_neg h2, if_neg h3]
  refine ⟨rfl, ?_, by simp [h0, h1, h2, h3]⟩
  have e : ∀ t, s ≠ t → (s == t) = false := fun t h => by simp [h]
  simp [List.lookup, e _ h0, e _ h1, e _ h2, e _ h3]

omit [StarRing K] [DecidableEq K] in
theorem token_norm [StarRing K] {r : K} (hr : star r * r + star r * r = 1) {s : String} {a : NDArray K} (h : validToken r s = some a) :
    star (a.data 0) * a.data 0 + star (a.data 1) * a.data 1 = 1 := by
  unfold validToken at h
  split at h
  · obtain rfl := Option.some.inj h; simp
  split at h
  · obtain rfl := Option.some.inj h; simp
  split at h
  · obtain rfl := Option.some.inj h; simpa using hr
  split at h
  · obtain rfl := Option.some.inj h; simpa using hr
  · simp at h

theorem get_one {a : NDArray K} (h : a.shape = [2]) (k : ℕ) : a.get [k] = a.data k := by
  unfold NDArray.get
  rw [h]
  simp [ravel]

theorem getState_ok {r : K} (hr : star r * r + star r * r = 1) {qubits : List Q} (hq : qubits.Nodup) {st : PyState Q K} (tag : Stage)
    (h : StateOk r qubits st) :
    ∃ (S : List Q) (arr : Q → NDArray K), getState r qubits tag st = .ok (S.map fun q => ((q, tag), arr q)) ∧ S.Nodup ∧
      (∀ q, q ∈ S ↔ q ∈ qubits ∧ (stateOf r st q).isSome) ∧
      ∀ q ∈ S, (arr q).shape = [2] ∧ ∀ v, stateOf r st q = some v → ∀ k, (arr q).get [k] = v k := by
  cases st with
  | none => exact ⟨[], fun _ => ⟨[], fun _ => 0⟩, rfl, List.nodup_nil, by simp [stateOf], by simp⟩
  | other => exact absurd h id
  | str s =>
    rcases validToken_spec r s with ⟨-, -, h1⟩ | ⟨a, v, h1, h2, -, h4, h5⟩
    · exact absurd h h1
    · refine ⟨qubits, fun _ => a, ?_, hq, ?_, ?_⟩
      · simp only [getState]; rw [h1]
      · intro q; simp [stateOf, h2]
      · intro q _
        refine ⟨h4, fun w hw k => ?_⟩
        simp only [stateOf] at hw
        rw [h2] at hw
        rw [get_one h4, h5, Option.some.inj hw]
  | dict l =>
    obtain ⟨hn, hl⟩ := h
    have hm : ∀ e ∈ l, ∃ a v, stateArray r e.2 = some a ∧ valVec r e.2 = some v ∧
        (e.1 ∈ qubits → a.shape = [2] ∧ star (a.data 0) * a.data 0 + star (a.data 1) * a.data 1 = 1 ∧ ∀ k, a.get [k] = v k) := by
      rintro ⟨q, x⟩ he
      have h1 := hl _ he
      cases x with
      | token s =>
        rcases validToken_spec r s with ⟨-, -, h2⟩ | ⟨a, v, h2, h3, -, h4, h5⟩
        · exact absurd h1 h2
        · exact ⟨a, v, h2, h3, fun _ => ⟨h4, token_norm hr h2, fun k => by rw [get_one h4, h5]⟩⟩
      | vec a =>
        refine ⟨a, _, rfl, rfl, fun hq => ?_⟩
        obtain ⟨h2, h3⟩ := h1 hq
        refine ⟨h2, ?_, fun _ => rfl⟩
        rw [get_one h2, get_one h2] at h3
        exact h3
    set A : Q × StateVal K → NDArray K := fun e => (stateArray r e.2).getD ⟨[], fun _ => 0⟩ with hA
    have hmap : (l.mapM fun e => (stateArray r e.2).map fun a => (e.1, a)) = some (l.map fun e => (e.1, A e)) := by
      have : ∀ l : List (Q × StateVal K), (∀ e ∈ l, ∃ a, stateArray r e.2 = some a) →
          (l.mapM fun e => (stateArray r e.2).map fun a => (e.1, a)) = some (l.map fun e => (e.1, A e)) := by
        intro l
        induction l with
        | nil => intro _; rfl
        | cons e l ih =>
          intro h
          obtain ⟨a, ha⟩ := h e (by simp)
          rw [List.mapM_cons, ih fun e he => h e (by simp [he])]
          simp [ha, hA]
      exact this l fun e he => by obtain ⟨a, v, h1, -⟩ := hm e he; exact ⟨a, h1⟩
    set S := (l.map Prod.fst).filter (· ∈ qubits) with hS
    set arr : Q → NDArray K := fun q => ((l.find? fun e => e.1 = q).map A).getD ⟨[], fun _ => 0⟩ with harr
    have hfind : ∀ e ∈ l, l.find? (fun e' => e'.1 = e.1) = some e := by
      clear hm hmap hl hS harr
      clear_value A S arr
      induction l with
      | nil => simp
      | cons a l ih =>
        intro e he
        rw [List.map_cons, List.nodup_cons] at hn
        rw [List.find?_cons]
        rcases List.mem_cons.1 he with rfl | he
        · simp
        · have : a.1 ≠ e.1 := fun h => hn.1 (h ▸ List.mem_map_of_mem he)
          simp only [this, decide_false]
          exact ih hn.2 e he
    have hs : ((l.map fun e => (e.1, A e)).filter fun e => e.1 ∈ qubits).map (fun e => ((e.1, tag), e.2)) = S.map fun q => ((q, tag), arr q) := by
      rw [hS, List.filter_map, List.filter_map, List.map_map, List.map_map]
      refine List.map_congr_left fun e he => ?_
      have hel := (List.mem_filter.1 he).1
      simp only [Function.comp_apply, harr, hfind e hel, Option.map_some, Option.getD_some]
    refine ⟨S, arr, ?_, hn.filter _, ?_, ?_⟩
    · simp only [getState]
      rw [hmap]
      simp only
      rw [hs, if_pos]
      intro e he
      obtain ⟨q, hq', rfl⟩ := List.mem_map.1 he
      rw [hS, List.mem_filter, decide_eq_true_eq, List.mem_map] at hq'
      obtain ⟨⟨e, hel, rfl⟩, hq'⟩ := hq'
      obtain ⟨a, v, h1, h2, h3⟩ := hm e hel
      obtain ⟨h4, h5, -⟩ := h3 hq'
      simp only [harr, hfind e hel, Option.map_some, Option.getD_some, hA, h1]
      exact ⟨h4, h5⟩
    · intro q
      rw [hS, List.mem_filter, decide_eq_true_eq, List.mem_map]
      constructor
      · rintro ⟨⟨e, hel, rfl⟩, hq'⟩
        obtain ⟨a, v, h1, h2, h3⟩ := hm e hel
        refine ⟨hq', ?_⟩
        simp [stateOf, hfind e hel, h2]
      · rintro ⟨h1, h2⟩
        refine ⟨?_, h1⟩
        simp only [stateOf] at h2
        cases hf : l.find? fun e => e.1 = q with
        | none => rw [hf] at h2; simp at h2
        | some e => exact ⟨e, List.mem_of_find?_eq_some hf, by simpa using List.find?_some hf⟩
    · intro q hq'
      rw [hS, List.mem_filter, decide_eq_true_eq, List.mem_map] at hq'
      obtain ⟨⟨e, hel, rfl⟩, hq'⟩ := hq'
      obtain ⟨a, v, h1, h2, h3⟩ := hm e hel
      obtain ⟨h4, -, h5⟩ := h3 hq'
      simp only [harr, hfind e hel, Option.map_some, Option.getD_some, hA, h1]
      refine ⟨h4, fun w hw k => ?_⟩
      simp only [stateOf, hfind e hel, Option.bind_some, h2, Option.some.injEq] at hw
      rw [h5 k, hw]

end TNCO
