import Verif.Lemmas.LoadObj
import Verif.Props.LoadText

/-!
# C63: `load_tn` takes an object for what it is

A list is loaded as a list of indices exactly if every row has an integer and at least one name, and as a list of gates exactly if every
member is a square matrix with the qubits it acts on; everything else is rejected with a `TypeError`. A text is loaded as the list of
its rows. The search for the format ends. The parts that do not hold are stated at the end.
-/

namespace TNCO

open PyObj

/-! ## Lists -/

/-- Lists and tuples: rows exactly if all members are rows, gates exactly if all members are gates and there is one. -/
theorem C63_list (env : ObjEnv) (f : ℕ) (inp : List ℕ) (xs : List PyObj) (k : LoadKind) (o : PyObj) :
    loadObj env (f + 1) inp (.seq xs) = .ok (k, o) ↔
      o = .seq xs ∧ ((k = .rows ∧ ∀ x ∈ xs, RowLike x) ∨ (k = .gates ∧ xs ≠ [] ∧ ∀ x ∈ xs, GateLike x)) := by
  have hr := allMap_true (f := PyObj.isRow) (l := xs)
  have hg := allMap_true (f := PyObj.isGate) (l := xs)
  simp only [isRow_true] at hr
  simp only [isGate_true] at hg
  have hdisj : ∀ x, RowLike x → GateLike x → False := by
    intro x h1 h2
    have h3 := isRow_true.2 h1
    rw [gate_not_row h2] at h3
    simp at h3
  constructor
  · intro h
    simp only [loadObj, classify, members] at h
    split at h
    · simp at h
    · next ha =>
      simp only [Except.ok.injEq, Prod.mk.injEq] at h
      exact ⟨h.2.symm, .inl ⟨h.1.symm, hr.1 ha⟩⟩
    · next ha =>
      split at h
      · simp at h
      · next hb =>
        simp only [Except.ok.injEq, Prod.mk.injEq] at h
        refine ⟨h.2.symm, .inr ⟨h.1.symm, ?_, hg.1 hb⟩⟩
        rintro rfl
        simp [allMap] at ha
      · simp [circuitOr] at h
  · rintro ⟨rfl, ⟨rfl, hall⟩ | ⟨rfl, hne, hall⟩⟩
    · simp only [loadObj, classify, members, hr.2 hall]
    · have hf : allMap PyObj.isRow xs = .ok false := by
        cases xs with
        | nil => exact absurd rfl hne
        | cons x xs => simp only [allMap, gate_not_row (hall x (by simp))]
      simp only [loadObj, classify, members, hf, hg.2 hall]

/-- A documented list of indices: every row has an integer and at least one name. -/
theorem C63_rows (env : ObjEnv) (f : ℕ) (inp : List ℕ) (rows : List (ℤ × List PyObj)) (h : ∀ r ∈ rows, r.2 ≠ []) :
    loadObj env (f + 1) inp (.seq (rows.map fun r => .seq (.num (.rat r.1) :: r.2))) =
      .ok (.rows, .seq (rows.map fun r => .seq (.num (.rat r.1) :: r.2))) := by
  rw [C63_list]
  refine ⟨rfl, .inl ⟨rfl, ?_⟩⟩
  intro x hx
  obtain ⟨r, hr, rfl⟩ := List.mem_map.1 hx
  exact .seq _ _ (h r hr) (.num r.1)

/-- A documented list of gates: every gate has a matrix and as many qubits as its size requires. -/
theorem C63_gates (env : ObjEnv) (f : ℕ) (inp : List ℕ) (gates : List (List Scalar × List PyObj)) (hne : gates ≠ [])
    (h : ∀ g ∈ gates, g.2 ≠ []) :
    loadObj env (f + 1) inp (.seq (gates.map fun g => .seq [.array [2 ^ g.2.length, 2 ^ g.2.length] g.1, .seq g.2])) =
      .ok (.gates, .seq (gates.map fun g => .seq [.array [2 ^ g.2.length, 2 ^ g.2.length] g.1, .seq g.2])) := by
  rw [C63_list]
  refine ⟨rfl, .inr ⟨rfl, by simpa using hne, ?_⟩⟩
  intro x hx
  obtain ⟨g, hg, rfl⟩ := List.mem_map.1 hx
  exact .seq _ _ _ (.seq _ (h g hg))

/-! ## Texts -/

theorem rowObj_isRow (r : ℕ × List (List ℕ)) : (rowObj r).isRow = .ok (decide (r.2 ≠ [])) := by
  by_cases h : r.2 = []
  · simp [rowObj, PyObj.isRow, randomAccess, len, item, h]
  · simp only [h, ne_eq, not_false_eq_true, decide_true]
    exact isRow_true.2 (.seq _ _ (by simpa using h) (.num (r.1 : ℤ)))

theorem rowObj_isGate (r : ℕ × List (List ℕ)) : (rowObj r).isGate = .ok false := by
  have hm : (PyObj.num (.rat r.1)).isMatrix = .ok Option.none := rfl
  have h0 : (rowObj r).item 0 = .ok (.num (.rat r.1)) := rfl
  have hr : (rowObj r).randomAccess = .ok true := rfl
  simp only [PyObj.isGate, hr, h0, hm, ite_self]

theorem rowObjs_load (env : ObjEnv) (f : ℕ) (inp : List ℕ) (rows : List (ℕ × List (List ℕ))) :
    loadObj env (f + 1) inp (.seq (rows.map rowObj)) =
      if ∀ r ∈ rows, r.2 ≠ [] then .ok (.rows, .seq (rows.map rowObj)) else .error .typeError := by
  have hall : allMap PyObj.isRow (rows.map rowObj) = .ok (decide (∀ r ∈ rows, r.2 ≠ [])) := by
    induction rows with
    | nil => simp [allMap]
    | cons r rows ih =>
      simp only [List.map_cons, allMap, rowObj_isRow, List.forall_mem_cons]
      by_cases h : r.2 = []
      · simp [h]
      · simp only [h, ne_eq, not_false_eq_true, decide_true, true_and]
        exact ih
  simp only [loadObj, classify, members, hall]
  by_cases h : ∀ r ∈ rows, r.2 ≠ []
  · rw [if_pos h]
    rw [decide_eq_true h]
  · rw [if_neg h]
    rw [decide_eq_false h]
    cases rows with
    | nil => simp at h
    | cons r rows => simp [allMap, rowObj_isGate, circuitOr]

/-- A text of rows is the list of its rows: it is loaded as a list of indices, unless a row has no names. -/
theorem C63_text (env : ObjEnv) (hd : DigitsOk env.digit) (hu : UpperOk env.digit env.upper) (f : ℕ) (inp s : List ℕ)
    (ls : List (List ℕ)) (rows : List (ℕ × List (List ℕ))) (hl : IsLines s ls) (hr : IsRows env.digit ls rows) (hne : ∃ l ∈ ls, l ≠ []) :
    loadObj env (f + 2) inp (.str s) =
      if ∀ r ∈ rows, r.2 ≠ [] then .ok (.rows, .seq (rows.map rowObj)) else .error .typeError := by
  rw [← rowObjs_load env f inp rows]
  rw [show f + 2 = (f + 1) + 1 from rfl, loadObj]
  simp only [(C50_text hd hu s rows).2 ⟨ls, hl, hr, hne⟩]

/-- The text `stdin` stands for the text on standard input without the white space around it, a path for the content of the file, and
any other text for the JSON value it denotes, if it denotes one. -/
theorem C63_indirect (env : ObjEnv) (f : ℕ) (inp s : List ℕ) :
    loadObj env (f + 1) inp (.str stdinText) = loadObj env f [] (.str (strip inp)) ∧
    (textKind env.digit env.upper s = .ok .other → ∀ o, env.file s = some (.ok o) → loadObj env (f + 1) inp (.str s) = loadObj env f inp o) ∧
    (textKind env.digit env.upper s = .ok .other → env.file s = Option.none → ∀ o, env.json s = some o →
      loadObj env (f + 1) inp (.str s) = loadObj env f inp o) := by
  refine ⟨?_, ?_, ?_⟩
  · rw [loadObj]
    simp only [textKind, if_true]
  · intro ht o ho
    rw [loadObj]
    simp only [ht, ho]
  · intro ht hf o ho
    rw [loadObj]
    simp only [ht, hf, ho]

/-! ## Everything else -/

theorem classify_tame {o : PyObj} (h : ∀ xs, o.members = some xs → ∀ x ∈ xs, Tame x) {e : ObjErr} (he : classify o = .error e) :
    e = .typeError := by
  unfold classify at he
  split at he
  · simpa using he.symm
  · next xs hx =>
    obtain ⟨a, ha⟩ := allMap_ok (f := PyObj.isRow) (l := xs) fun x hm => isRow_ok (h xs hx x hm)
    obtain ⟨b, hb⟩ := allMap_ok (f := PyObj.isGate) (l := xs) fun x hm => isGate_ok (h xs hx x hm)
    simp only [ha, hb] at he
    cases a with
    | true => simp at he
    | false =>
      cases b with
      | true => simp at he
      | false =>
        simp only [circuitOr] at he
        split at he <;> simp_all

/-- An object which is no list of indices, no list of gates, no circuit and no network is rejected with a `TypeError`, provided that
its members are not empty, are no dictionaries and have no infinite entry. -/
theorem C63_rejects_partial (env : ObjEnv) (f : ℕ) (inp : List ℕ) :
    (∀ xs : List PyObj, (∀ x ∈ xs, Tame x) → ¬ (∀ x ∈ xs, RowLike x) → ¬ (∀ x ∈ xs, GateLike x) →
      loadObj env (f + 1) inp (.seq xs) = .error .typeError) ∧
    (∀ xs : List PyObj, (∀ x ∈ xs, Tame x) → ¬ (∀ x ∈ xs, RowLike x) → ¬ (∀ x ∈ xs, GateLike x) →
      loadObj env (f + 1) inp (.set xs) = .error .typeError) ∧
    (∀ ks vs : List PyObj, ks.any isCirqKey = false → (∀ x ∈ ks, Tame x) → ¬ (∀ x ∈ ks, RowLike x) → ¬ (∀ x ∈ ks, GateLike x) →
      loadObj env (f + 1) inp (.dict ks vs) = .error .typeError) ∧
    (∀ x : Scalar, loadObj env (f + 1) inp (.num x) = .error .typeError) ∧
    loadObj env (f + 1) inp .none = .error .typeError ∧ loadObj env (f + 1) inp .opaque = .error .typeError ∧
    loadObj env (f + 1) inp .iterator = .error .notImplemented := by
  have key : ∀ (o : PyObj) (xs : List PyObj), o.members = some xs → (∀ n, o ≠ .circuit n) → (∀ x ∈ xs, Tame x) →
      ¬ (∀ x ∈ xs, RowLike x) → ¬ (∀ x ∈ xs, GateLike x) → classify o = .error .typeError := by
    intro o xs hm hc ht hr hg
    obtain ⟨a, ha⟩ := allMap_ok (f := PyObj.isRow) (l := xs) fun x hm => isRow_ok (ht x hm)
    obtain ⟨b, hb⟩ := allMap_ok (f := PyObj.isGate) (l := xs) fun x hm => isGate_ok (ht x hm)
    have hr' := allMap_true (f := PyObj.isRow) (l := xs)
    have hg' := allMap_true (f := PyObj.isGate) (l := xs)
    simp only [isRow_true] at hr'
    simp only [isGate_true] at hg'
    cases a with
    | true => exact absurd (hr'.1 ha) hr
    | false =>
      cases b with
      | true => exact absurd (hg'.1 hb) hg
      | false =>
        simp only [classify, hm, ha, hb]
        cases o with
        | circuit n => exact absurd rfl (hc n)
        | _ => rfl
  refine ⟨?_, ?_, ?_, fun _ => rfl, rfl, rfl, rfl⟩
  · intro xs ht hr hg
    exact key (.seq xs) xs rfl (by simp) ht hr hg
  · intro xs ht hr hg
    exact key (.set xs) xs rfl (by simp) ht hr hg
  · intro ks vs hk ht hr hg
    simp only [loadObj, hk, Bool.false_eq_true, if_false]
    exact key (.dict ks vs) ks rfl (by simp) ht hr hg

/-- A text which is neither a circuit nor rows nor the name of a file nor JSON is rejected with a `TypeError`. -/
theorem C63_rejects_text (env : ObjEnv) (f : ℕ) (inp s : List ℕ) (ht : textKind env.digit env.upper s = .ok .other)
    (hf : env.file s = Option.none) (hj : env.json s = Option.none) : loadObj env (f + 1) inp (.str s) = .error .typeError := by
  rw [loadObj]
  simp only [ht, hf, hj]
  cases s with
  | nil =>
    have : textKind env.digit env.upper [] = .error .valueError := rfl
    rw [this] at ht
    simp at ht
  | cons c s =>
    have h1 : (PyObj.str [c]).isRow = .ok false := rfl
    have h2 : (PyObj.str [c]).isGate = .ok false := rfl
    simp only [classify, members, List.map_cons, allMap, h1, h2, circuitOr]

/-- Networks and non-empty circuits are loaded as such. -/
theorem C63_circuit (env : ObjEnv) (f : ℕ) (inp : List ℕ) (n : ℕ) :
    loadObj env (f + 1) inp (.network n) = .ok (.network, .network n) ∧
    (0 < n → loadObj env (f + 1) inp (.circuit n) = .ok (.circuit, .circuit n)) := by
  refine ⟨rfl, ?_⟩
  intro hn
  obtain ⟨m, rfl⟩ : ∃ m, n = m + 1 := ⟨n - 1, by omega⟩
  simp [loadObj, classify, members, List.replicate_succ, allMap, PyObj.isRow, PyObj.isGate, randomAccess, len, circuitOr]

/-! ## The search ends -/

theorem item_error {x : PyObj} {k : ℕ} {e : ObjErr} (h : x.item k = .error e) : e = .typeError ∨ e = .indexError ∨ e = .keyError := by
  cases x with
  | array sh data =>
    cases sh with
    | nil =>
      simp only [item, Except.error.injEq] at h
      exact .inr (.inl h.symm)
    | cons n sh =>
      simp only [item] at h
      split at h
      · simp at h
      · simp only [Except.error.injEq] at h
        exact .inr (.inl h.symm)
  | str s =>
    simp only [item] at h
    split at h
    · simp at h
    · simp only [Except.error.injEq] at h
      exact .inr (.inl h.symm)
  | network n =>
    simp only [item] at h
    split at h
    · simp at h
    · simp only [Except.error.injEq] at h
      exact .inr (.inl h.symm)
  | circuit n =>
    simp only [item] at h
    split at h
    · simp at h
    · simp only [Except.error.injEq] at h
      exact .inr (.inl h.symm)
  | seq xs =>
    simp only [item] at h
    split at h
    · simp at h
    · simp only [Except.error.injEq] at h
      exact .inr (.inl h.symm)
  | dict ks vs =>
    simp only [item] at h
    split at h
    · simp at h
    · simp only [Except.error.injEq] at h
      exact .inr (.inr h.symm)
  | _ =>
    simp only [item, Except.error.injEq] at h
    exact .inl h.symm

theorem randomAccess_error {x : PyObj} {e : ObjErr} (h : x.randomAccess = .error e) : e = .indexError ∨ e = .keyError := by
  unfold randomAccess at h
  split at h
  · simp at h
  · split at h
    · simp at h
    · simp at h
    · next e' hne he =>
      simp only [Except.error.injEq] at h
      subst h
      rcases item_error he with rfl | h | h
      · exact absurd rfl hne
      · exact .inl h
      · exact .inr h

theorem isInt_error {x : PyObj} {e : ObjErr} (h : x.isInt = .error e) : e = .overflow := by
  have hs : ∀ q : Scalar, scalarInt q = .error e → e = .overflow := by
    intro q hq
    cases q <;> simp [scalarInt] at hq
    exact hq.symm
  unfold isInt at h
  split at h
  · exact hs _ h
  · split at h
    · exact hs _ h
    · simp at h
  · simp at h

theorem isRow_error {x : PyObj} {e : ObjErr} (h : x.isRow = .error e) : e ≠ .recursion := by
  unfold PyObj.isRow at h
  split at h
  · next e' he =>
    simp only [Except.error.injEq] at h
    subst h
    rcases randomAccess_error he with rfl | rfl <;> simp
  · simp at h
  · split at h
    · split at h
      · next e' he =>
        simp only [Except.error.injEq] at h
        subst h
        rcases item_error he with rfl | rfl | rfl <;> simp
      · rw [isInt_error h]
        simp
    · simp at h

theorem isMatrix_error {x : PyObj} {e : ObjErr} (h : x.isMatrix = .error e) : e ≠ .recursion := by
  unfold isMatrix at h
  split at h
  · next e' he =>
    simp only [Except.error.injEq] at h
    subst h
    rcases randomAccess_error he with rfl | rfl <;> simp
  · simp at h
  · simp at h

theorem isGate_error {x : PyObj} {e : ObjErr} (h : x.isGate = .error e) : e ≠ .recursion := by
  unfold PyObj.isGate at h
  split at h
  · next e' he =>
    simp only [Except.error.injEq] at h
    subst h
    rcases randomAccess_error he with rfl | rfl <;> simp
  · simp at h
  · split at h
    · split at h
      · next e' he =>
        simp only [Except.error.injEq] at h
        subst h
        rcases item_error he with rfl | rfl | rfl <;> simp
      · split at h
        · next e' he =>
          simp only [Except.error.injEq] at h
          subst h
          exact isMatrix_error he
        · simp at h
        · split at h
          · next e' he =>
            simp only [Except.error.injEq] at h
            subst h
            rcases item_error he with rfl | rfl | rfl <;> simp
          · split at h
            · next e' he =>
              simp only [Except.error.injEq] at h
              subst h
              rcases randomAccess_error he with rfl | rfl <;> simp
            · simp at h
            · simp at h
    · simp at h

theorem allMap_error {α ε : Type} {f : α → Except ε Bool} {l : List α} {e : ε} (h : allMap f l = .error e) : ∃ x ∈ l, f x = .error e := by
  induction l with
  | nil => simp [allMap] at h
  | cons x l ih =>
    simp only [allMap] at h
    split at h
    · next e' he =>
      simp only [Except.error.injEq] at h
      subst h
      exact ⟨x, by simp, he⟩
    · simp at h
    · obtain ⟨y, hy, hf⟩ := ih h
      exact ⟨y, List.mem_cons_of_mem _ hy, hf⟩

theorem classify_error {o : PyObj} : classify o ≠ .error .recursion := by
  intro h
  unfold classify at h
  split at h
  · simp at h
  · split at h
    · next e he =>
      simp only [Except.error.injEq] at h
      subst h
      obtain ⟨x, -, hx⟩ := allMap_error he
      exact isRow_error hx rfl
    · simp at h
    · split at h
      · next e he =>
        simp only [Except.error.injEq] at h
        subst h
        obtain ⟨x, -, hx⟩ := allMap_error he
        exact isGate_error hx rfl
      · simp at h
      · unfold circuitOr at h
        split at h <;> simp at h

/-- An object that is classified at once: no text and no circuit as JSON. -/
def Direct : PyObj → Prop
  | .str _ => False
  | .dict ks _ => ks.any isCirqKey = false
  | _ => True

/-- Surroundings that do not lead in circles: the readers of circuits give objects which are no text, and there is a rank of texts
which is lower for the text in a file than for the name of the file, and lower for a text than for the JSON that denotes it. -/
structure ObjEnv.Ends (env : ObjEnv) (rank : List ℕ → ℕ) : Prop where
  qasm_ok : ∀ s o, env.qasm s = .ok o → Direct o
  qasm_error : ∀ s, env.qasm s ≠ .error .recursion
  readJson_ok : ∀ d o, env.readJson d = .ok o → Direct o
  readJson_error : ∀ d, env.readJson d ≠ .error .recursion
  file_ok : ∀ s t, env.file s = some (.ok (.str t)) → rank t < rank s
  file_error : ∀ s, env.file s ≠ some (.error .recursion)
  json_ok : ∀ s t, env.json s = some (.str t) → rank t < rank s
  stdin_ok : rank [] < rank stdinText

theorem direct_ends (env : ObjEnv) (f : ℕ) (inp : List ℕ) {o : PyObj} (h : Direct o) : loadObj env (f + 1) inp o ≠ .error .recursion := by
  cases o with
  | str s => exact h.elim
  | iterator => simp [loadObj]
  | network n => simp [loadObj]
  | dict ks vs =>
    have h' : ks.any isCirqKey = false := h
    simp only [loadObj, h', Bool.false_eq_true, if_false]
    exact classify_error
  | _ =>
    simp only [loadObj]
    exact classify_error

theorem object_ends {env : ObjEnv} {rank : List ℕ → ℕ} (henv : env.Ends rank) (f : ℕ) (inp : List ℕ) {o : PyObj} (h : ∀ t, o ≠ .str t) :
    loadObj env (f + 2) inp o ≠ .error .recursion := by
  cases o with
  | str s => exact absurd rfl (h s)
  | dict ks vs =>
    by_cases hk : ks.any isCirqKey = true
    · rw [show f + 2 = (f + 1) + 1 from rfl, loadObj]
      simp only [hk, if_true]
      split
      · next e he =>
        intro h'
        simp only [Except.error.injEq] at h'
        subst h'
        exact henv.readJson_error _ he
      · next o ho => exact direct_ends env f inp (henv.readJson_ok _ _ ho)
    · exact direct_ends env (f + 1) inp (by simpa [Direct] using hk)
  | _ => exact direct_ends env (f + 1) inp (by simp [Direct])

/-- The search for the format ends: the number of calls is bounded by the ranks of the text and of the text on standard input. -/
theorem C63_ends_partial (env : ObjEnv) (rank : List ℕ → ℕ) (henv : env.Ends rank) (f : ℕ) (inp : List ℕ) :
    (∀ s : List ℕ, rank s + rank (strip inp) + 3 ≤ f → loadObj env f inp (.str s) ≠ .error .recursion) ∧
    (∀ o : PyObj, (∀ t, o ≠ .str t) → 2 ≤ f → loadObj env f inp o ≠ .error .recursion) := by
  have hobj : ∀ (f : ℕ) (inp : List ℕ) (o : PyObj), (∀ t, o ≠ .str t) → 2 ≤ f → loadObj env f inp o ≠ .error .recursion := by
    intro f inp o ho hf
    obtain ⟨g, rfl⟩ : ∃ g, f = g + 2 := ⟨f - 2, by omega⟩
    exact object_ends henv g inp ho
  refine ⟨?_, hobj f inp⟩
  induction f generalizing inp with
  | zero => intro s hs; omega
  | succ f ih =>
    intro s hs
    rw [loadObj]
    split
    · simp
    · next ht =>
      have h5 : s = stdinText := by
        unfold textKind at ht
        split at ht
        · assumption
        · exfalso
          split at ht
          · simp at ht
          · split at ht
            · simp at ht
            · split at ht <;> simp at ht
      have hs0 : strip [] = [] := rfl
      have := henv.stdin_ok
      rw [← h5] at this
      exact ih [] (strip inp) (by rw [hs0]; omega)
    · split
      · next e he =>
        intro h'
        simp only [Except.error.injEq] at h'
        subst h'
        exact henv.qasm_error _ he
      · next o ho =>
        obtain ⟨g, rfl⟩ : ∃ g, f = g + 1 := ⟨f - 1, by omega⟩
        exact direct_ends env g inp (henv.qasm_ok _ _ ho)
    · exact hobj f inp _ (by simp) (by omega)
    · split
      · next e he =>
        intro h'
        simp only [Except.error.injEq] at h'
        subst h'
        exact henv.file_error _ he
      · next o ho =>
        cases o with
        | str t =>
          have := henv.file_ok s t ho
          exact ih inp t (by omega)
        | _ => exact hobj f inp _ (by simp) (by omega)
      · split
        · next o ho =>
          cases o with
          | str t =>
            have := henv.json_ok s t ho
            exact ih inp t (by omega)
          | _ => exact hobj f inp _ (by simp) (by omega)
        · exact classify_error

/-! ## Concrete cases -/

/-- Surroundings with the text file `net.txt`, the file `loop.json` with its own name as a text, and the file `bell.json` with gates. -/
def fileEnv : ObjEnv where
  digit := asciiDigit
  upper := asciiUpper
  qasm _ := .error .library
  file s :=
    if s = codes "net.txt" then some (.ok (.str (codes "2 a b\n2 b *")))
    else if s = codes "loop.json" then some (.ok (.str (codes "loop.json")))
    else Option.none
  json _ := Option.none
  readJson _ := .ok (.circuit 3)

/-- The same without `loop.json`. -/
def plainEnv : ObjEnv :=
  { fileEnv with file := fun s => if s = codes "net.txt" then some (.ok (.str (codes "2 a b\n2 b *"))) else Option.none }

/-- The rank for it. -/
def plainRank (s : List ℕ) : ℕ := if s = codes "net.txt" then 2 else if s = [] then 0 else 1

theorem plainEnv_ends : plainEnv.Ends plainRank where
  qasm_ok s o h := by simp [plainEnv, fileEnv] at h
  qasm_error s h := by simp [plainEnv, fileEnv] at h
  readJson_ok d o h := by
    simp only [plainEnv, fileEnv, Except.ok.injEq] at h
    subst h
    trivial
  readJson_error d h := by simp [plainEnv, fileEnv] at h
  file_ok s t h := by
    simp only [plainEnv] at h
    split at h
    · next hs =>
      simp only [Option.some.injEq, Except.ok.injEq, PyObj.str.injEq] at h
      subst h hs
      decide +kernel
    · simp at h
  file_error s h := by
    simp only [plainEnv] at h
    split at h <;> simp at h
  json_ok s t h := by simp [plainEnv, fileEnv] at h
  stdin_ok := by decide +kernel

example : loadObj plainEnv 10 [] (.str (codes "net.txt")) ≠ .error .recursion :=
  (C63_ends_partial plainEnv plainRank plainEnv_ends 10 []).1 _ (by decide +kernel)

/-- The text of the file is loaded as the list of its rows. -/
example : loadObj plainEnv 3 [] (.str (codes "net.txt")) =
    .ok (.rows, .seq ([(2, [codes "a", codes "b"]), (2, [codes "b", codes "*"])].map rowObj)) := by
  have hk : textKind asciiDigit asciiUpper (codes "2 a b\n2 b *") = .ok (.inds [(2, [codes "a", codes "b"]), (2, [codes "b", codes "*"])]) := by
    decide +kernel
  obtain ⟨ls, hl, hr, hne⟩ := (C50_text asciiDigit_ok asciiUpper_ok _ _).1 hk
  rw [(C63_indirect plainEnv 2 [] (codes "net.txt")).2.1 (by decide +kernel) (.str (codes "2 a b\n2 b *")) (by simp [plainEnv])]
  rw [C63_text plainEnv asciiDigit_ok asciiUpper_ok 0 [] _ ls _ hl hr hne]
  rw [if_pos (by simp)]

example : ∀ x ∈ [PyObj.str (codes "ab"), .num (.rat 3), .seq [.num .nan, .none], .array [2, 2] [.rat 1, .rat 0, .rat 0, .rat 1]], Tame x := by
  simp [Tame, NotInf, Hollow, codes]

/-! ## What does not hold -/

/-- An empty member, a dictionary without the key `0` and an infinite first entry raise other exceptions than a `TypeError`. -/
theorem C63_not_type_error (env : ObjEnv) (f : ℕ) (inp : List ℕ) (xs : List PyObj) :
    loadObj env (f + 1) inp (.seq (.seq [] :: xs)) = .error .indexError ∧
    loadObj env (f + 1) inp (.seq (.str [] :: xs)) = .error .indexError ∧
    loadObj env (f + 1) inp (.seq (.dict [] [] :: xs)) = .error .keyError ∧
    loadObj env (f + 1) inp (.seq (.seq [.num .inf, .str [97]] :: xs)) = .error .overflow ∧
    loadObj env (f + 1) inp (.array [1, 0] []) = .error .indexError :=
  ⟨rfl, rfl, rfl, rfl, rfl⟩

/-- Nothing is a list of indices: empty lists, sets and dictionaries, and circuits without operations, are loaded as the network
without tensors. -/
theorem C63_empty (env : ObjEnv) (f : ℕ) (inp : List ℕ) :
    loadObj env (f + 1) inp (.seq []) = .ok (.rows, .seq []) ∧ loadObj env (f + 1) inp (.set []) = .ok (.rows, .set []) ∧
    loadObj env (f + 1) inp (.dict [] []) = .ok (.rows, .dict [] []) ∧
    loadObj env (f + 1) inp (.circuit 0) = .ok (.rows, .circuit 0) ∧
    ∀ data, loadObj env (f + 1) inp (.array [0, 5] data) = .ok (.rows, .array [0, 5] data) :=
  ⟨rfl, rfl, rfl, rfl, fun _ => rfl⟩

/-- A file with its own name as its text is never loaded, however deep the recursion may go. -/
theorem C63_loops (env : ObjEnv) (s : List ℕ) (ht : textKind env.digit env.upper s = .ok .other) (hs : env.file s = some (.ok (.str s)))
    (f : ℕ) (inp : List ℕ) : loadObj env f inp (.str s) = .error .recursion := by
  induction f with
  | zero => rfl
  | succ f ih =>
    rw [loadObj]
    simp only [ht, hs]
    exact ih

example (f : ℕ) : loadObj fileEnv f [] (.str (codes "loop.json")) = .error .recursion :=
  C63_loops fileEnv _ (by decide +kernel) (by simp only [fileEnv]; rw [if_neg (by decide +kernel), if_pos trivial]) f []

/-- Files with these names are not looked at: the names are taken for a circuit, for the network without tensors, for a row without
names and for a text without lines. -/
theorem C63_file_names (env : ObjEnv) (hd : env.digit = asciiDigit) (hu : env.upper = asciiUpper) (f : ℕ) (inp : List ℕ) :
    (∀ e, env.qasm (codes "openqasm.txt") = .error e → loadObj env (f + 2) inp (.str (codes "openqasm.txt")) = .error e) ∧
    loadObj env (f + 2) inp (.str (codes "#1.json")) = .ok (.rows, .seq []) ∧
    loadObj env (f + 2) inp (.str (codes "2026")) = .error .typeError ∧
    loadObj env (f + 2) inp (.str (codes "//data/net.json")) = .error .valueError := by
  have h1 : textKind env.digit env.upper (codes "openqasm.txt") = .ok .qasm := by rw [hd, hu]; decide +kernel
  have h2 : textKind env.digit env.upper (codes "#1.json") = .ok (.inds []) := by rw [hd, hu]; decide +kernel
  have h3 : textKind env.digit env.upper (codes "2026") = .ok (.inds [(2026, [])]) := by rw [hd, hu]; decide +kernel
  have h4 : textKind env.digit env.upper (codes "//data/net.json") = .error .valueError := by rw [hd, hu]; decide +kernel
  refine ⟨?_, ?_, ?_, ?_⟩
  · intro e he
    rw [show f + 2 = (f + 1) + 1 from rfl, loadObj]
    simp only [h1, he]
  · rw [show f + 2 = (f + 1) + 1 from rfl, loadObj]
    simp only [h2, rowObjs_load]
    simp
  · rw [show f + 2 = (f + 1) + 1 from rfl, loadObj]
    simp only [h3, rowObjs_load]
    simp
  · rw [show f + 2 = (f + 1) + 1 from rfl, loadObj]
    simp only [h4]

/-- What `tnco optimize` prints as JSON is not what `tnco` reads: the object `{"tn": …, "res": […]}` (`tnco/app/app.py:664-667`) is refused
whatever it holds, and so is a file that holds it and the text itself. -/
theorem C63_dump (env : ObjEnv) (f : ℕ) (inp : List ℕ) (tn res : PyObj) :
    loadObj env (f + 1) inp (.dict [.str (codes "tn"), .str (codes "res")] [tn, res]) = .error .typeError ∧
    (∀ s : List ℕ, textKind env.digit env.upper s = .ok .other →
      (env.file s = some (.ok (.dict [.str (codes "tn"), .str (codes "res")] [tn, res])) ∨
        env.file s = Option.none ∧ env.json s = some (.dict [.str (codes "tn"), .str (codes "res")] [tn, res])) →
      loadObj env (f + 2) inp (.str s) = .error .typeError) := by
  have h : ∀ f, loadObj env (f + 1) inp (.dict [.str (codes "tn"), .str (codes "res")] [tn, res]) = .error .typeError := by
    intro f; rfl
  refine ⟨h f, ?_⟩
  rintro s ht (hf | ⟨hf, hj⟩)
  · rw [(C63_indirect env (f + 1) inp s).2.1 ht _ hf, h]
  · rw [(C63_indirect env (f + 1) inp s).2.2 ht hf _ hj, h]

/-- `fileEnv` with a file `out.json` that holds what was printed for a run without results. -/
def dumpEnv : ObjEnv :=
  { fileEnv with file := fun s => if s = codes "out.json" then some (.ok (.dict [.str (codes "tn"), .str (codes "res")] [.none, .seq []])) else Option.none }

example : loadObj dumpEnv 5 [] (.str (codes "out.json")) = .error .typeError :=
  (C63_dump dumpEnv 3 [] .none (.seq [])).2 _ (by decide +kernel) (Or.inl (by simp only [dumpEnv]; rw [if_pos trivial]))

end TNCO
