import Mathlib.Data.Rat.Defs
import Verif.Spec.LoadObj

/-!
# Lemmas on the choice of the format in `load_tn`
-/

namespace TNCO

open PyObj

theorem scalarInt_true {x : Scalar} : scalarInt x = .ok true ↔ ∃ n : ℤ, x = .rat n := by
  cases x with
  | rat q =>
    simp only [scalarInt, Except.ok.injEq, Scalar.rat.injEq]
    constructor
    · intro h
      exact ⟨q.num, Rat.eq_num_of_isInt h⟩
    · rintro ⟨n, rfl⟩
      rfl
  | inf => simp [scalarInt]
  | nan => simp [scalarInt]
  | complex => simp [scalarInt]

theorem isInt_true {x : PyObj} : x.isInt = .ok true ↔ IntLike x := by
  constructor
  · intro h
    cases x with
    | num q =>
      obtain ⟨n, rfl⟩ := scalarInt_true.1 h
      exact .num n
    | array sh data =>
      match data, h with
      | [], h => simp [isInt] at h
      | [x], h =>
        simp only [isInt] at h
        split at h
        · next hp =>
          obtain ⟨n, rfl⟩ := scalarInt_true.1 h
          exact .array sh n hp
        · simp at h
      | _ :: _ :: _, h => simp [isInt] at h
    | _ => simp [isInt] at h
  · intro h
    cases h with
    | num n => exact scalarInt_true.2 ⟨n, rfl⟩
    | array sh n hp =>
      simp only [isInt, hp, if_true]
      exact scalarInt_true.2 ⟨n, rfl⟩

theorem randomAccess_true {x : PyObj} : x.randomAccess = .ok true ↔ ∃ k, Indexed k x := by
  constructor
  · intro h
    cases x with
    | str s =>
      cases s with
      | nil => simp [randomAccess, len, item] at h
      | cons c s => exact ⟨_, .str _ (by simp)⟩
    | network n =>
      by_cases hn : 0 < n
      · exact ⟨_, .network n hn⟩
      · simp [randomAccess, len, item, hn] at h
    | circuit n =>
      by_cases hn : 0 < n
      · exact ⟨_, .circuit n hn⟩
      · simp [randomAccess, len, item, hn] at h
    | seq xs =>
      cases xs with
      | nil => simp [randomAccess, len, item] at h
      | cons c s => exact ⟨_, .seq _ (by simp)⟩
    | set xs => simp [randomAccess, len, item] at h
    | dict ks vs =>
      cases hi : (PyObj.dict ks vs).item 0 with
      | ok y => exact ⟨_, .dict ks vs y hi⟩
      | error e =>
        simp only [randomAccess, len, hi] at h
        cases e <;> simp at h
    | array sh data =>
      cases sh with
      | nil => simp [randomAccess, len] at h
      | cons n sh =>
        by_cases hn : 0 < n
        · exact ⟨_, .array n sh data hn⟩
        · simp [randomAccess, len, item, hn] at h
    | _ => simp [randomAccess, len] at h
  · rintro ⟨k, h⟩
    cases h with
    | str s hs =>
      cases s with
      | nil => exact absurd rfl hs
      | cons c s => simp [randomAccess, len, item]
    | network n hn => simp [randomAccess, len, item, hn]
    | circuit n hn => simp [randomAccess, len, item, hn]
    | seq xs hx =>
      cases xs with
      | nil => exact absurd rfl hx
      | cons c s => simp [randomAccess, len, item]
    | dict ks vs y hy => simp [randomAccess, len, hy]
    | array n sh data hn => simp [randomAccess, len, item, hn]

theorem Indexed.len_eq {k : ℕ} {x : PyObj} (h : Indexed k x) : x.len = some k := by
  cases h <;> rfl

theorem Indexed.pos {k : ℕ} {x : PyObj} (h : Indexed k x) : 0 < k := by
  cases h with
  | str s hs => exact List.length_pos_iff.2 hs
  | network _ h => exact h
  | circuit _ h => exact h
  | seq _ hx => exact List.length_pos_iff.2 hx
  | dict ks vs y hy =>
    rw [List.length_pos_iff]
    rintro rfl
    simp [item] at hy
  | array _ _ _ h => exact h

theorem Indexed.item_zero {k : ℕ} {x : PyObj} (h : Indexed k x) : ∃ y, x.item 0 = .ok y := by
  have hr := randomAccess_true.2 ⟨k, h⟩
  cases hi : x.item 0 with
  | ok y => exact ⟨y, rfl⟩
  | error e =>
    simp only [randomAccess, h.len_eq, hi] at hr
    cases e <;> simp at hr

theorem isRow_iff {x : PyObj} : x.isRow = .ok true ↔ ∃ k y, Indexed k x ∧ 1 < k ∧ x.item 0 = .ok y ∧ IntLike y := by
  constructor
  · intro h
    unfold PyObj.isRow at h
    split at h
    · simp at h
    · simp at h
    · next hr =>
      obtain ⟨k, hk⟩ := randomAccess_true.1 hr
      simp only [hk.len_eq, Option.getD_some] at h
      split at h
      · next hk1 =>
        split at h
        · simp at h
        · next y hy => exact ⟨k, y, hk, hk1, hy, isInt_true.1 h⟩
      · simp at h
  · rintro ⟨k, y, hk, hk1, hy, hint⟩
    simp only [PyObj.isRow, randomAccess_true.2 ⟨k, hk⟩, hk.len_eq, Option.getD_some, hy, gt_iff_lt, hk1, if_true]
    exact isInt_true.2 hint

theorem isRow_true {x : PyObj} : x.isRow = .ok true ↔ RowLike x := by
  rw [isRow_iff]
  constructor
  · rintro ⟨k, y, hk, hk1, hy, hint⟩
    cases hk with
    | str s hs =>
      cases s with
      | nil => exact absurd rfl hs
      | cons c s =>
        simp only [item, List.getElem?_cons_zero, Except.ok.injEq] at hy
        subst hy
        cases hint
    | network n hn =>
      simp only [item, hn, if_true, Except.ok.injEq] at hy
      subst hy
      cases hint
    | circuit n hn =>
      simp only [item, hn, if_true, Except.ok.injEq] at hy
      subst hy
      cases hint
    | seq xs hx =>
      cases xs with
      | nil => exact absurd rfl hx
      | cons c s =>
        simp only [item, List.getElem?_cons_zero, Except.ok.injEq] at hy
        subst hy
        refine .seq _ _ ?_ hint
        rintro rfl
        simp at hk1
    | dict ks vs z hz => exact .dict ks vs y hk1 hy hint
    | array n sh data hn =>
      simp only [item, hn, if_true, Except.ok.injEq] at hy
      subst hy
      exact .array _ _ _ hk1 hint
  · intro h
    cases h with
    | seq y ys hys hint =>
      refine ⟨_, y, .seq _ (by simp), ?_, by simp [item], hint⟩
      have := List.length_pos_iff.2 hys
      simp only [List.length_cons]
      omega
    | array n sh data hn hint =>
      refine ⟨n, _, .array n sh data (by omega), hn, ?_, hint⟩
      simp only [item]
      rw [if_pos (by omega)]
    | dict ks vs y hk hy hint => exact ⟨_, y, .dict ks vs y hy, hk, hy, hint⟩

theorem squareSize_eq {x : PyObj} {n : ℕ} (h : x.squareSize = some n) : ∃ data, x = .array [n, n] data := by
  cases x with
  | array sh data =>
    match sh, h with
    | [], h => simp [squareSize] at h
    | [_], h => simp [squareSize] at h
    | [a, b], h =>
      simp only [squareSize] at h
      split at h
      · next hab =>
        simp only [Option.some.injEq] at h
        subst h hab
        exact ⟨data, rfl⟩
      · simp at h
    | _ :: _ :: _ :: _, h => simp [squareSize] at h
  | _ => simp [squareSize] at h

theorem isMatrix_some {x : PyObj} {n : ℕ} : x.isMatrix = .ok (some n) ↔ 0 < n ∧ ∃ data, x = .array [n, n] data := by
  constructor
  · intro h
    unfold isMatrix at h
    split at h
    · simp at h
    · simp at h
    · next hr =>
      simp only [Except.ok.injEq] at h
      obtain ⟨data, rfl⟩ := squareSize_eq h
      obtain ⟨k, hk⟩ := randomAccess_true.1 hr
      cases hk with
      | array _ _ _ hn => exact ⟨hn, data, rfl⟩
  · rintro ⟨hn, data, rfl⟩
    have := randomAccess_true.2 ⟨n, Indexed.array n [n] data hn⟩
    simp [isMatrix, this, squareSize]

theorem isGate_iff {x : PyObj} : x.isGate = .ok true ↔
    ∃ k data qs, Indexed 2 x ∧ x.item 0 = .ok (.array [2 ^ k, 2 ^ k] data) ∧ x.item 1 = .ok qs ∧ Indexed k qs := by
  constructor
  · intro h
    unfold PyObj.isGate at h
    split at h
    · simp at h
    · simp at h
    · next hr =>
      obtain ⟨k, hk⟩ := randomAccess_true.1 hr
      simp only [hk.len_eq, Option.getD_some] at h
      split at h
      · next hk2 =>
        subst hk2
        split at h
        · simp at h
        · next a ha =>
          split at h
          · simp at h
          · simp at h
          · next n hn =>
            obtain ⟨hn0, data, rfl⟩ := isMatrix_some.1 hn
            split at h
            · simp at h
            · next qs hqs =>
              split at h
              · simp at h
              · simp at h
              · next hq =>
                obtain ⟨j, hj⟩ := randomAccess_true.1 hq
                simp only [hj.len_eq, Option.getD_some, Except.ok.injEq, decide_eq_true_eq] at h
                subst h
                exact ⟨j, data, qs, hk, ha, hqs, hj⟩
      · simp at h
  · rintro ⟨k, data, qs, h2, h0, h1, hk⟩
    have hm : (PyObj.array [2 ^ k, 2 ^ k] data).isMatrix = .ok (some (2 ^ k)) := isMatrix_some.2 ⟨Nat.two_pow_pos k, data, rfl⟩
    simp [PyObj.isGate, randomAccess_true.2 ⟨2, h2⟩, h2.len_eq, h0, h1, hm, randomAccess_true.2 ⟨k, hk⟩, hk.len_eq]

theorem isGate_true {x : PyObj} : x.isGate = .ok true ↔ GateLike x := by
  rw [isGate_iff]
  constructor
  · rintro ⟨k, data, qs, h2, h0, h1, hk⟩
    cases x with
    | str s =>
      simp only [item] at h0
      split at h0 <;> simp at h0
    | network n =>
      simp only [item] at h0
      split at h0 <;> simp at h0
    | circuit n =>
      simp only [item] at h0
      split at h0 <;> simp at h0
    | seq xs =>
      have hl := h2.len_eq
      simp only [len, Option.some.injEq] at hl
      match xs, hl with
      | [a, b], _ =>
        simp only [item, List.getElem?_cons_zero, Except.ok.injEq, List.getElem?_cons_succ] at h0 h1
        subst h0 h1
        exact .seq k data b hk
    | dict ks vs =>
      have hl := h2.len_eq
      simp only [len, Option.some.injEq] at hl
      exact .dict ks vs k data qs hl h0 h1 hk
    | array sh d =>
      exfalso
      match sh, h0, h1 with
      | [], h0, _ => simp [item] at h0
      | [a], h0, _ =>
        simp only [item] at h0
        split at h0 <;> simp [sub] at h0
      | n :: m :: sh, h0, h1 =>
        simp only [item] at h0 h1
        split at h0
        · split at h1
          · simp only [sub, Except.ok.injEq, PyObj.array.injEq, List.cons.injEq] at h0 h1
            obtain ⟨⟨hm, hsh⟩, -⟩ := h0
            subst h1
            subst hsh hm
            have hl := hk.len_eq
            simp only [len, Option.some.injEq] at hl
            exact absurd hl (Nat.lt_two_pow_self).ne'
          · simp at h1
        · simp at h0
    | _ => simp [item] at h0
  · intro h
    cases h with
    | seq k data qs hk => exact ⟨k, data, qs, .seq [_, _] (by simp), rfl, rfl, hk⟩
    | dict ks vs k data qs hl h0 h1 hk => exact ⟨k, data, qs, hl ▸ .dict ks vs _ h0, h0, h1, hk⟩

/-! ## No exceptions -/

theorem randomAccess_ok {x : PyObj} (h : ¬ Hollow x) : ∃ b, x.randomAccess = .ok b := by
  cases x with
  | str s =>
    refine ⟨true, randomAccess_true.2 ⟨_, .str s h⟩⟩
  | network n => exact ⟨true, randomAccess_true.2 ⟨_, .network n (Nat.pos_of_ne_zero h)⟩⟩
  | circuit n => exact ⟨true, randomAccess_true.2 ⟨_, .circuit n (Nat.pos_of_ne_zero h)⟩⟩
  | seq xs => exact ⟨true, randomAccess_true.2 ⟨_, .seq xs h⟩⟩
  | set xs => exact ⟨false, rfl⟩
  | dict ks vs =>
    have hi : ∃ y, (PyObj.dict ks vs).item 0 = .ok y := by
      simp only [item]
      split
      · next e _ => exact ⟨_, rfl⟩
      · next hn =>
        exfalso
        apply h
        intro e he hk
        have := (List.find?_eq_none.1 hn) e he
        rw [hk] at this
        simp [isKey] at this
    obtain ⟨y, hy⟩ := hi
    exact ⟨true, randomAccess_true.2 ⟨_, .dict ks vs y hy⟩⟩
  | array sh data =>
    cases sh with
    | nil => exact ⟨false, rfl⟩
    | cons n sh =>
      refine ⟨true, randomAccess_true.2 ⟨_, .array n sh data (Nat.pos_of_ne_zero ?_)⟩⟩
      rintro rfl
      exact h rfl
  | _ => exact ⟨false, rfl⟩

theorem scalarInt_ok {x : Scalar} (h : x ≠ .inf) : ∃ b, scalarInt x = .ok b := by
  cases x with
  | inf => exact absurd rfl h
  | rat q => exact ⟨_, rfl⟩
  | nan => exact ⟨_, rfl⟩
  | complex => exact ⟨_, rfl⟩

theorem isInt_ok {x : PyObj} (h : NotInf x) : ∃ b, x.isInt = .ok b := by
  cases x with
  | num x => exact scalarInt_ok h
  | array sh data =>
    match data, h with
    | [], _ => exact ⟨_, rfl⟩
    | [x], h =>
      simp only [isInt]
      split
      · exact scalarInt_ok (by rintro rfl; exact h (by simp))
      · exact ⟨_, rfl⟩
    | _ :: _ :: _, _ => exact ⟨_, rfl⟩
  | _ => exact ⟨_, rfl⟩

theorem isMatrix_ok {x : PyObj} (h : ¬ Hollow x) : ∃ b, x.isMatrix = .ok b := by
  obtain ⟨b, hb⟩ := randomAccess_ok h
  cases b <;> simp [isMatrix, hb]

theorem Tame.not_hollow {x : PyObj} (h : Tame x) : ¬ Hollow x := by
  cases x with
  | str s => exact h
  | network n => exact (Nat.pos_iff_ne_zero.1 h)
  | circuit n => exact (Nat.pos_iff_ne_zero.1 h)
  | seq xs => exact h.1
  | dict ks vs => exact h.elim
  | array sh data =>
    intro h0
    exact h.1 (List.mem_of_mem_head? h0)
  | _ => exact id

theorem sub_tame {n : ℕ} {sh : List ℕ} {data : List Scalar} (h : Tame (.array (n :: sh) data)) (k : ℕ) :
    NotInf (sub sh data k) ∧ ¬ Hollow (sub sh data k) := by
  cases sh with
  | nil =>
    refine ⟨?_, id⟩
    simp only [sub, NotInf]
    cases hk : data[k]? with
    | none => simp
    | some x =>
      rintro hx
      simp only [Option.getD_some] at hx
      subst hx
      exact h.2 (List.mem_of_getElem? hk)
  | cons m sh =>
    refine ⟨?_, ?_⟩
    · intro hm
      exact h.2 (List.mem_of_mem_drop (List.mem_of_mem_take hm))
    · intro h0
      simp only [sub, Hollow, List.head?_cons, Option.some.injEq] at h0
      exact h.1 (by simp [h0])

theorem Tame.item_ok {x y : PyObj} (h : Tame x) {k : ℕ} (hy : x.item k = .ok y) : NotInf y ∧ ¬ Hollow y := by
  cases x with
  | str s =>
    simp only [item] at hy
    split at hy
    · simp only [Except.ok.injEq] at hy
      subst hy
      exact ⟨trivial, by simp [Hollow]⟩
    · simp at hy
  | network n =>
    simp only [item] at hy
    split at hy
    · simp only [Except.ok.injEq] at hy
      subst hy
      exact ⟨trivial, id⟩
    · simp at hy
  | circuit n =>
    simp only [item] at hy
    split at hy
    · simp only [Except.ok.injEq] at hy
      subst hy
      exact ⟨trivial, id⟩
    · simp at hy
  | seq xs =>
    simp only [item] at hy
    split at hy
    · next z hz =>
      simp only [Except.ok.injEq] at hy
      subst hy
      exact h.2 _ (List.mem_of_getElem? hz)
    · simp at hy
  | dict ks vs => exact h.elim
  | array sh data =>
    cases sh with
    | nil => simp [item] at hy
    | cons n sh =>
      simp only [item] at hy
      split at hy
      · simp only [Except.ok.injEq] at hy
        subst hy
        exact sub_tame h k
      · simp at hy
  | _ => simp [item] at hy

theorem Tame.item_exists {x : PyObj} (h : Tame x) {k j : ℕ} (hk : Indexed k x) (hj : j < k) : ∃ y, x.item j = .ok y := by
  cases hk with
  | str s _ => simp [item, List.getElem?_eq_getElem hj]
  | network n _ => simp [item, hj]
  | circuit n _ => simp [item, hj]
  | seq xs _ => simp [item, List.getElem?_eq_getElem hj]
  | dict => exact h.elim
  | array n sh data _ => simp [item, hj]

theorem isRow_ok {x : PyObj} (h : Tame x) : ∃ b, x.isRow = .ok b := by
  obtain ⟨b, hb⟩ := randomAccess_ok h.not_hollow
  cases b with
  | false => exact ⟨false, by simp [PyObj.isRow, hb]⟩
  | true =>
    obtain ⟨k, hk⟩ := randomAccess_true.1 hb
    obtain ⟨y, hy⟩ := hk.item_zero
    obtain ⟨c, hc⟩ := isInt_ok (h.item_ok hy).1
    simp only [PyObj.isRow, hb, hy, hc]
    split
    · exact ⟨_, rfl⟩
    · exact ⟨_, rfl⟩

theorem isGate_ok {x : PyObj} (h : Tame x) : ∃ b, x.isGate = .ok b := by
  obtain ⟨b, hb⟩ := randomAccess_ok h.not_hollow
  cases b with
  | false => exact ⟨false, by simp [PyObj.isGate, hb]⟩
  | true =>
    obtain ⟨k, hk⟩ := randomAccess_true.1 hb
    simp only [PyObj.isGate, hb, hk.len_eq, Option.getD_some]
    by_cases h2 : k = 2
    · subst h2
      obtain ⟨a, ha⟩ := h.item_exists hk (j := 0) (by omega)
      obtain ⟨qs, hqs⟩ := h.item_exists hk (j := 1) (by omega)
      obtain ⟨m, hm⟩ := isMatrix_ok (h.item_ok ha).2
      obtain ⟨c, hc⟩ := randomAccess_ok (h.item_ok hqs).2
      simp only [ha, hqs, hm, hc, if_true]
      cases m with
      | none => exact ⟨_, rfl⟩
      | some n =>
        cases c
        · exact ⟨_, rfl⟩
        · exact ⟨_, rfl⟩
    · simp [h2]

/-! ## All members -/

theorem allMap_true {α ε : Type} {f : α → Except ε Bool} {l : List α} : allMap f l = .ok true ↔ ∀ x ∈ l, f x = .ok true := by
  induction l with
  | nil => simp [allMap]
  | cons x l ih =>
    simp only [allMap, List.forall_mem_cons, ← ih]
    split
    · next e he => simp [he]
    · next he => simp [he]
    · next he => simp [he]

theorem allMap_ok {α ε : Type} {f : α → Except ε Bool} {l : List α} (h : ∀ x ∈ l, ∃ b, f x = .ok b) : ∃ b, allMap f l = .ok b := by
  induction l with
  | nil => exact ⟨_, rfl⟩
  | cons x l ih =>
    obtain ⟨b, hb⟩ := h x (by simp)
    cases b with
    | false => simp [allMap, hb]
    | true =>
      obtain ⟨c, hc⟩ := ih fun y hy => h y (List.mem_cons_of_mem _ hy)
      simp [allMap, hb, hc]

theorem gate_not_row {x : PyObj} (h : GateLike x) : x.isRow = .ok false := by
  obtain ⟨k, data, qs, h2, h0, -, hk⟩ := isGate_iff.1 (isGate_true.2 h)
  have hnot : (PyObj.array [2 ^ k, 2 ^ k] data).isInt = .ok false := by
    match data with
    | [] => rfl
    | [x] =>
      simp only [isInt]
      rw [if_neg]
      intro hp
      simp only [List.prod_cons, List.prod_nil, mul_one] at hp
      have h1 : 2 ^ k = 1 := Nat.eq_one_of_mul_eq_one_right hp
      have hk0 : k = 0 := by
        by_contra hne
        have := Nat.one_lt_two_pow hne
        omega
      subst hk0
      exact absurd hk.pos (by simp)
    | _ :: _ :: _ => rfl
  simp [PyObj.isRow, randomAccess_true.2 ⟨2, h2⟩, h2.len_eq, h0, hnot]

end TNCO
