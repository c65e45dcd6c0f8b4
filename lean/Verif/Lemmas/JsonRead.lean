import Verif.Lemmas.Json

/-! # Lemmas: objects are read as their values -/

namespace TNCO

/-- A text that starts with a value and is read as this value, whatever follows. -/
structure Reads (s : List ℕ) (v : Json) : Prop where
  start : ∃ c t, s = c :: t ∧ isWs c = false ∧ c ≠ 93
  read : ∀ n rest, s.length ≤ n → NumEnds rest → readValue n (s ++ rest) = some (v, rest)

theorem ends_of {c : ℕ} {r : List ℕ} (h : isNumChar c = false) : NumEnds (c :: r) := by
  intro d hd
  simp only [List.head?_cons, Option.some.injEq] at hd
  rw [← hd]
  exact h

theorem ends_nil : NumEnds [] := by
  intro c hc
  simp at hc

theorem skipWs_of {c : ℕ} {t : List ℕ} (h : isWs c = false) : skipWs (c :: t) = c :: t := by simp [skipWs, h]

theorem readValue_space (n : ℕ) (s : List ℕ) : readValue n (32 :: s) = readValue n s := by
  cases n with
  | zero => rfl
  | succ n =>
    have : skipWs (32 :: s) = skipWs s := rfl
    rw [readValue, readValue, this]

theorem readElements_space (n : ℕ) (s : List ℕ) : readElements n (32 :: s) = readElements n s := by
  cases n with
  | zero => rfl
  | succ n => rw [readElements, readElements, readValue_space]

theorem succ_of_pos {n k : ℕ} (h : k + 1 ≤ n) : ∃ m, n = m + 1 ∧ k ≤ m := ⟨n - 1, by omega, by omega⟩

theorem reads_null : Reads nullText .null where
  start := ⟨110, _, rfl, rfl, by decide⟩
  read := by
    intro n rest hn _
    obtain ⟨m, rfl, -⟩ := succ_of_pos (k := 3) hn
    simp [nullText, readValue, skipWs, isWs]

theorem reads_bool (b : Bool) : Reads (boolText b) (.bool b) where
  start := by cases b <;> exact ⟨_, _, rfl, rfl, by decide⟩
  read := by
    intro n rest hn _
    obtain ⟨m, rfl⟩ : ∃ m, n = m + 1 := ⟨n - 1, by cases b <;> simp [boolText] at hn <;> omega⟩
    cases b <;> simp [boolText, nullText, readValue, skipWs, isWs]

theorem reads_num {r : List ℕ} (h : FloatOk r) : Reads r (.num r) := by
  have key : ∃ c t, r = c :: t ∧ isWs c = false ∧ c ≠ 93 ∧ c ≠ 34 ∧ c ≠ 91 ∧ c ≠ 123 ∧ c ≠ 110 ∧ c ≠ 116 ∧ c ≠ 102 := by
    rcases h with h | rfl | rfl | rfl
    · obtain ⟨⟨c, t, e, hc⟩, -⟩ := number_chars h
      refine ⟨c, t, e, ?_⟩
      rcases hc with hc | ⟨rfl, -⟩
      · simp only [isDec, Bool.and_eq_true, decide_eq_true_eq] at hc
        refine ⟨?_, ?_⟩
        · simp [isWs]; omega
        · omega
      · decide
    · exact ⟨_, _, rfl, by decide⟩
    · exact ⟨_, _, rfl, by decide⟩
    · exact ⟨_, _, rfl, by decide⟩
  obtain ⟨c, t, e, hw, h1, h2, h3, h4, h5, h6, h7⟩ := key
  refine ⟨⟨c, t, e, hw, h1⟩, ?_⟩
  intro n rest hn hr
  obtain ⟨m, rfl⟩ : ∃ m, n = m + 1 := ⟨n - 1, by rw [e] at hn; simp at hn; omega⟩
  have hnum := readNumber_text h hr
  rw [e] at hnum ⊢
  simp only [List.cons_append] at hnum ⊢
  have a1 : (c :: (t ++ rest)).take 4 ≠ nullText := by
    intro h
    simp [nullText] at h
    omega
  have a2 : (c :: (t ++ rest)).take 4 ≠ boolText true := by
    intro h
    simp [boolText] at h
    omega
  have a3 : (c :: (t ++ rest)).take 5 ≠ boolText false := by
    intro h
    simp [boolText] at h
    omega
  rw [readValue, skipWs_of hw]
  simp only [h2, h3, h4, a1, a2, a3, if_false]
  rw [hnum]

theorem reads_str {s : List ℕ} (h : TextOk s) : Reads (strText s) (.str s) where
  start := ⟨34, _, rfl, rfl, by decide⟩
  read := by
    intro n rest hn _
    obtain ⟨m, rfl, -⟩ := succ_of_pos (k := (s.flatMap escapeChar ++ [34]).length) (by simpa [strText] using hn)
    have hl := flatMap_escape_length s
    rw [strText, List.cons_append, List.cons_append, readValue, skipWs_of (by decide), List.append_assoc, List.singleton_append]
    simp only [if_true]
    rw [readString_text h _ (by simp only [List.length_append, List.length_cons]; omega)]
    rfl

theorem joinComma_cons (s : List ℕ) (l : List (List ℕ)) (hl : l ≠ []) : joinComma (s :: l) = s ++ 44 :: 32 :: joinComma l := by
  cases l with
  | nil => exact absurd rfl hl
  | cons t l => simp [joinComma]

theorem readElements_text {ss : List (List ℕ)} {vs : List Json} (h : List.Forall₂ Reads ss vs) (hne : ss ≠ []) (n : ℕ) (rest : List ℕ)
    (hn : (joinComma ss).length + 1 ≤ n) : readElements n (joinComma ss ++ 93 :: rest) = some (vs, rest) := by
  induction h generalizing n with
  | nil => exact absurd rfl hne
  | @cons s v ss vs hs h ih =>
    obtain ⟨m, rfl, hm⟩ := succ_of_pos hn
    by_cases hss : ss = []
    · subst hss
      cases h
      rw [joinComma, readElements, hs.read m _ (by simpa [joinComma] using hm) (ends_of (by decide))]
      simp [skipWs, isWs]
    · rw [joinComma_cons _ _ hss] at hm ⊢
      rw [List.append_assoc]
      simp only [List.cons_append]
      rw [readElements, hs.read m _ (by simp at hm; omega) (ends_of (by decide))]
      simp only [skipWs_of (show isWs 44 = false from rfl), List.head?_cons, List.tail_cons]
      rw [readElements_space, ih hss m (by simp at hm; omega)]
      simp

theorem joinComma_start {ss : List (List ℕ)} {vs : List Json} (h : List.Forall₂ Reads ss vs) (hne : ss ≠ []) :
    ∃ c t, joinComma ss = c :: t ∧ isWs c = false ∧ c ≠ 93 := by
  cases h with
  | nil => exact absurd rfl hne
  | @cons s v ss vs hs h =>
    obtain ⟨c, t, rfl, h1, h2⟩ := hs.start
    by_cases hss : ss = []
    · subst hss
      exact ⟨c, t, rfl, h1, h2⟩
    · rw [joinComma_cons _ _ hss]
      exact ⟨c, _, rfl, h1, h2⟩

theorem reads_arr {ss : List (List ℕ)} {vs : List Json} (h : List.Forall₂ Reads ss vs) : Reads (arrayText ss) (.arr vs) where
  start := ⟨91, _, rfl, rfl, by decide⟩
  read := by
    intro n rest hn _
    obtain ⟨m, rfl, hm⟩ := succ_of_pos (k := (joinComma ss ++ [93]).length) (by simpa [arrayText] using hn)
    rw [arrayText, List.cons_append, List.cons_append, readValue, skipWs_of (by decide), List.append_assoc, List.singleton_append]
    simp only [Nat.reduceEqDiff, if_false, if_true]
    by_cases hss : ss = []
    · subst hss
      cases h
      simp [joinComma, skipWs, isWs]
    · obtain ⟨c, t, e, h1, h2⟩ := joinComma_start h hss
      have : (skipWs (joinComma ss ++ 93 :: rest)).head? ≠ some 93 := by
        rw [e, List.cons_append, skipWs_of h1]
        simp [h2]
      rw [if_neg this, readElements_text h hss m rest (by simpa using hm)]
      rfl

/-- A member that is read as a key and a value. -/
def ReadsMember (p : List ℕ × List ℕ) (q : List ℕ × Json) : Prop := p.1 = q.1 ∧ TextOk p.1 ∧ Reads p.2 q.2

theorem readMembers_text {ps : List (List ℕ × List ℕ)} {qs : List (List ℕ × Json)} (h : List.Forall₂ ReadsMember ps qs) (hne : ps ≠ []) (n : ℕ)
    (rest : List ℕ) (hn : (joinComma (ps.map fun p => memberText p.1 p.2)).length + 1 ≤ n) :
    readMembers n (joinComma (ps.map fun p => memberText p.1 p.2) ++ 125 :: rest) = some (qs, rest) ∧
      readMembers n (32 :: (joinComma (ps.map fun p => memberText p.1 p.2) ++ 125 :: rest)) = some (qs, rest) := by
  induction h generalizing n with
  | nil => exact absurd rfl hne
  | @cons p q ps qs hp h ih =>
    obtain ⟨k, s⟩ := p
    obtain ⟨k', v⟩ := q
    obtain ⟨rfl, hk, hs⟩ := hp
    simp only at hk hs
    obtain ⟨m, rfl, hm⟩ := succ_of_pos hn
    have hl := flatMap_escape_length k
    simp only [List.map_cons] at hm ⊢
    obtain ⟨tail, ht, hcase⟩ : ∃ tail, joinComma (memberText k s :: ps.map fun p => memberText p.1 p.2) ++ 125 :: rest = memberText k s ++ tail ∧
        ((tail = 125 :: rest ∧ qs = []) ∨ (∃ t', tail = 44 :: 32 :: t' ∧ readMembers m (32 :: t') = some (qs, rest))) := by
      by_cases hps : ps = []
      · subst hps
        cases h
        exact ⟨_, rfl, .inl ⟨rfl, rfl⟩⟩
      · have hps' : (ps.map fun p => memberText p.1 p.2) ≠ [] := by simpa using hps
        rw [joinComma_cons _ _ hps'] at hm ⊢
        refine ⟨44 :: 32 :: (joinComma (ps.map fun p => memberText p.1 p.2) ++ 125 :: rest), by simp, .inr ⟨_, rfl, ?_⟩⟩
        exact (ih hps m (by simp at hm; omega)).2
    have hlen : s.length ≤ m := by
      have : (memberText k s).length ≤ (joinComma (memberText k s :: ps.map fun p => memberText p.1 p.2)).length := by
        by_cases hps : (ps.map fun p => memberText p.1 p.2) = []
        · rw [hps]
          simp [joinComma]
        · rw [joinComma_cons _ _ hps]
          simp
      have h2 : s.length ≤ (memberText k s).length := by simp [memberText]; omega
      omega
    rw [ht]
    have hends : NumEnds tail := by
      rcases hcase with ⟨rfl, -⟩ | ⟨t', rfl, -⟩
      · exact ends_of (by decide)
      · exact ends_of (by decide)
    have e1 : memberText k s ++ tail = 34 :: (k.flatMap escapeChar ++ 34 :: 58 :: 32 :: (s ++ tail)) := by simp [memberText, strText]
    have main : ∀ N, k.length < N → (match readString N (k.flatMap escapeChar ++ 34 :: 58 :: 32 :: (s ++ tail)) with
      | none => none
      | some (k, r) =>
        if (skipWs r).head? = some 58 then
          match readValue m (skipWs r).tail with
          | none => none
          | some (v, r') =>
            if (skipWs r').head? = some 125 then some ([(k, v)], (skipWs r').tail)
            else if (skipWs r').head? = some 44 then (readMembers m (skipWs r').tail).map fun p => ((k, v) :: p.1, p.2)
            else none
        else none) = some ((k, v) :: qs, rest) := by
      intro N hN
      rw [readString_text hk N hN]
      simp only [skipWs_of (show isWs 58 = false from rfl), List.head?_cons, if_true, List.tail_cons]
      rw [readValue_space, hs.read m tail hlen hends]
      rcases hcase with ⟨rfl, rfl⟩ | ⟨t', rfl, hr⟩
      · simp [skipWs, isWs]
      · simp only [skipWs_of (show isWs 44 = false from rfl), List.head?_cons, List.tail_cons]
        rw [hr]
        simp
    rw [e1]
    constructor
    · rw [readMembers, skipWs_of (by decide)]
      simp only [List.head?_cons, if_true, List.tail_cons]
      exact main _ (by simp only [List.length_cons, List.length_append]; omega)
    · have : skipWs (32 :: 34 :: (k.flatMap escapeChar ++ 34 :: 58 :: 32 :: (s ++ tail))) = 34 :: (k.flatMap escapeChar ++ 34 :: 58 :: 32 :: (s ++ tail)) := rfl
      rw [readMembers, this]
      simp only [List.head?_cons, if_true, List.tail_cons]
      exact main _ (by simp only [List.length_cons, List.length_append]; omega)

theorem reads_obj {ps : List (List ℕ × List ℕ)} {qs : List (List ℕ × Json)} (h : List.Forall₂ ReadsMember ps qs) : Reads (objectText ps) (.obj qs) where
  start := ⟨123, _, rfl, rfl, by decide⟩
  read := by
    intro n rest hn _
    obtain ⟨m, rfl, hm⟩ := succ_of_pos (k := (joinComma (ps.map fun p : List ℕ × List ℕ => memberText p.1 p.2) ++ [125]).length) (by simpa [objectText] using hn)
    rw [objectText, List.cons_append, List.cons_append, readValue, skipWs_of (by decide), List.append_assoc, List.singleton_append]
    simp only [Nat.reduceEqDiff, if_false, if_true]
    by_cases hps : ps = []
    · subst hps
      cases h
      simp [joinComma, skipWs, isWs]
    · have hs : ∃ t, joinComma (ps.map fun p => memberText p.1 p.2) = 34 :: t := by
        cases ps with
        | nil => exact absurd rfl hps
        | cons p ps =>
          simp only [List.map_cons]
          by_cases hps' : (ps.map fun p => memberText p.1 p.2) = []
          · rw [hps']
            exact ⟨_, rfl⟩
          · rw [joinComma_cons _ _ hps']
            exact ⟨_, rfl⟩
      obtain ⟨t, ht⟩ := hs
      have : (skipWs (joinComma (ps.map fun p => memberText p.1 p.2) ++ 125 :: rest)).head? ≠ some 125 := by
        rw [ht, List.cons_append, skipWs_of (by decide)]
        simp
      rw [if_neg this, (readMembers_text h hps m rest (by simpa using hm)).1]
      rfl

theorem reads_json {s : List ℕ} {v : Json} (h : Reads s v) : readJson s = some v := by
  have := h.read (s.length + 1) [] (by omega) ends_nil
  rw [List.append_nil] at this
  unfold readJson
  rw [this]
  simp [skipWs]

theorem keyText_ok {k : KeyJ} (h : k.Ok) {s : List ℕ} (hs : keyText k = some s) : TextOk s := by
  have asc : ∀ {l : List ℕ}, (∀ c ∈ l, c < 55296) → TextOk l := fun h c hc => .inl (h c hc)
  cases k with
  | none =>
    simp only [keyText, Option.some.injEq] at hs
    subst hs
    exact asc (by decide)
  | bool b =>
    simp only [keyText, Option.some.injEq] at hs
    subst hs
    cases b <;> exact asc (by decide)
  | int z =>
    simp only [keyText, Option.some.injEq] at hs
    subst hs
    exact floatOk_text (.inl (numberOk_intText z))
  | float r =>
    simp only [keyText, Option.some.injEq] at hs
    subst hs
    exact floatOk_text h
  | str r =>
    simp only [keyText, Option.some.injEq] at hs
    subst hs
    exact h
  | other => simp [keyText] at hs

theorem complex_ok {re im : List ℕ} (h1 : TextOk re) (h2 : TextOk im) : TextOk (re ++ [32, 43, 32] ++ im ++ [106]) := by
  intro c hc
  simp only [List.mem_append, List.mem_cons, List.not_mem_nil, or_false] at hc
  rcases hc with ((hc | hc) | hc) | hc
  · exact h1 c hc
  · left; omega
  · exact h2 c hc
  · left; omega

mutual
/-- Every object is written, and then read as its value, or has none. -/
theorem dumps_reads (e : EncoderJ) : ∀ o : PyJ, o.Ok → (o.value e = none ∧ o.dumps e = .error .typeError) ∨ ∃ v s, o.value e = some v ∧ o.dumps e = .ok s ∧ Reads s v
  | .none, _ => .inr ⟨_, _, rfl, rfl, reads_null⟩
  | .bool b, _ => .inr ⟨_, _, rfl, rfl, reads_bool b⟩
  | .int z, _ => .inr ⟨_, _, rfl, rfl, reads_num (.inl (numberOk_intText z))⟩
  | .float r, h => .inr ⟨_, _, rfl, rfl, reads_num h⟩
  | .str s, h => .inr ⟨_, _, rfl, rfl, reads_str h⟩
  | .list l, h => by
    rcases dumps_list e l h with ⟨h1, h2⟩ | ⟨vs, ss, h1, h2, h3⟩
    · exact .inl ⟨by simp [PyJ.value, h1], by simp [PyJ.dumps, h2, Except.map]⟩
    · exact .inr ⟨.arr vs, arrayText ss, by simp [PyJ.value, h1], by simp [PyJ.dumps, h2, Except.map], reads_arr h3⟩
  | .tuple l, h => by
    rcases dumps_list e l h with ⟨h1, h2⟩ | ⟨vs, ss, h1, h2, h3⟩
    · exact .inl ⟨by simp [PyJ.value, h1], by simp [PyJ.dumps, h2, Except.map]⟩
    · exact .inr ⟨.arr vs, arrayText ss, by simp [PyJ.value, h1], by simp [PyJ.dumps, h2, Except.map], reads_arr h3⟩
  | .dict m, h => by
    rcases dumps_dict e m h with ⟨h1, h2⟩ | ⟨vs, ss, h1, h2, h3⟩
    · exact .inl ⟨by simp [PyJ.value, h1], by simp [PyJ.dumps, h2, Except.map]⟩
    · exact .inr ⟨.obj vs, objectText ss, by simp [PyJ.value, h1], by simp [PyJ.dumps, h2, Except.map], reads_obj h3⟩
  | .frozenset l, h => by
    rcases dumps_list e l h with ⟨h1, h2⟩ | ⟨vs, ss, h1, h2, h3⟩
    · cases e <;> exact .inl ⟨by simp [PyJ.value, h1], by simp [PyJ.dumps, EncoderJ.default, h2, Except.map]⟩
    · cases e with
      | network => exact .inr ⟨.arr vs, arrayText ss, by simp [PyJ.value, h1], by simp [PyJ.dumps, EncoderJ.default, h2, Except.map], reads_arr h3⟩
      | finite => exact .inr ⟨.arr vs, arrayText ss, by simp [PyJ.value, h1], by simp [PyJ.dumps, EncoderJ.default, h2, Except.map], reads_arr h3⟩
      | infinite => exact .inl ⟨by simp [PyJ.value], by simp [PyJ.dumps, EncoderJ.default]⟩
  | .complex re im, h => by
    cases e with
    | network => exact .inr ⟨_, _, by simp only [PyJ.value, if_true], by simp only [PyJ.dumps, EncoderJ.default], reads_str (complex_ok h.1 h.2)⟩
    | finite => exact .inl ⟨by simp [PyJ.value], by simp [PyJ.dumps, EncoderJ.default]⟩
    | infinite => exact .inl ⟨by simp [PyJ.value], by simp [PyJ.dumps, EncoderJ.default]⟩
  | .decimal s, h => by
    cases e with
    | network => exact .inl ⟨by simp [PyJ.value], by simp [PyJ.dumps, EncoderJ.default]⟩
    | finite => exact .inr ⟨.str s, strText s, by simp [PyJ.value], by simp [PyJ.dumps, EncoderJ.default], reads_str h⟩
    | infinite => exact .inr ⟨.str s, strText s, by simp [PyJ.value], by simp [PyJ.dumps, EncoderJ.default], reads_str h⟩
  | .cirqQubit s, h => by
    cases e with
    | network => exact .inr ⟨.str s, strText s, by simp [PyJ.value], by simp [PyJ.dumps, EncoderJ.default], reads_str h⟩
    | finite => exact .inr ⟨.str s, strText s, by simp [PyJ.value], by simp [PyJ.dumps, EncoderJ.default], reads_str h⟩
    | infinite => exact .inl ⟨by simp [PyJ.value], by simp [PyJ.dumps, EncoderJ.default]⟩
  | .toJson s, h => .inr ⟨.str s, strText s, by simp [PyJ.value], by simp [PyJ.dumps, EncoderJ.default], reads_str h⟩
  | .other, _ => .inl ⟨by simp [PyJ.value], by simp [PyJ.dumps]⟩
theorem dumps_list (e : EncoderJ) : ∀ l : List PyJ, PyJ.OkAll l →
    (PyJ.values e l = none ∧ PyJ.dumpsList e l = .error .typeError) ∨ ∃ vs ss, PyJ.values e l = some vs ∧ PyJ.dumpsList e l = .ok ss ∧ List.Forall₂ Reads ss vs
  | [], _ => .inr ⟨_, _, rfl, rfl, .nil⟩
  | o :: l, h => by
    rcases dumps_reads e o h.1 with ⟨h1, h2⟩ | ⟨v, s, h1, h2, h3⟩
    · exact .inl ⟨by simp [PyJ.values, h1], by simp [PyJ.dumpsList, h2]⟩
    · rcases dumps_list e l h.2 with ⟨k1, k2⟩ | ⟨vs, ss, k1, k2, k3⟩
      · exact .inl ⟨by simp [PyJ.values, h1, k1], by simp [PyJ.dumpsList, h2, k2]⟩
      · exact .inr ⟨v :: vs, s :: ss, by simp [PyJ.values, h1, k1], by simp [PyJ.dumpsList, h2, k2], .cons h3 k3⟩
theorem dumps_dict (e : EncoderJ) : ∀ m : List (KeyJ × PyJ), PyJ.OkDict m →
    (PyJ.members e m = none ∧ PyJ.dumpsDict e m = .error .typeError) ∨
      ∃ vs ss, PyJ.members e m = some vs ∧ PyJ.dumpsDict e m = .ok ss ∧ List.Forall₂ ReadsMember ss vs
  | [], _ => .inr ⟨_, _, rfl, rfl, .nil⟩
  | (k, o) :: m, h => by
    cases hk : keyText k with
    | none => exact .inl ⟨by simp [PyJ.members, hk], by simp [PyJ.dumpsDict, hk]⟩
    | some ks =>
      rcases dumps_reads e o h.2.1 with ⟨h1, h2⟩ | ⟨v, s, h1, h2, h3⟩
      · exact .inl ⟨by simp [PyJ.members, hk, h1], by simp [PyJ.dumpsDict, hk, h2]⟩
      · rcases dumps_dict e m h.2.2 with ⟨k1, k2⟩ | ⟨vs, ss, k1, k2, k3⟩
        · exact .inl ⟨by simp [PyJ.members, hk, h1, k1], by simp [PyJ.dumpsDict, hk, h2, k2]⟩
        · exact .inr ⟨(ks, v) :: vs, (ks, s) :: ss, by simp [PyJ.members, hk, h1, k1], by simp [PyJ.dumpsDict, hk, h2, k2],
            .cons ⟨rfl, keyText_ok h.1 hk, h3⟩ k3⟩
end

end TNCO
