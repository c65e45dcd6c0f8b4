import Verif.Lemmas.Triples

/-! Merging paths. -/

namespace TNCO
namespace Linear

theorem replay_length {ts : List Term} {path : List (ℕ × ℕ)} {F : List Term} (h : replay ts path = some F) :
    F.length + path.length = ts.length ∧ (path ≠ [] → F ≠ []) := by
  induction path generalizing ts with
  | nil => simp only [replay, Option.some.injEq] at h; subst h; simp
  | cons s path ih =>
    obtain ⟨x, y⟩ := s
    have hxy : x ≠ y := by intro e; simp [replay, e] at h
    rw [replay_cons hxy] at h
    cases hp : popPair ts x y with
    | none => rw [hp] at h; cases h
    | some r =>
      obtain ⟨a, b, rest⟩ := r
      rw [hp] at h
      simp only [Option.bind_some] at h
      have h1 := (ih h).1
      have h2 := (popPair_perm hp).length_eq
      simp only [List.length_cons, List.length_append, List.length_singleton, List.length_nil] at h1 h2 ⊢
      refine ⟨by omega, fun _ hF => ?_⟩
      by_cases hpn : path = []
      · subst hpn; simp only [replay, Option.some.injEq] at h; rw [hF] at h; simp at h
      · exact (ih h).2 hpn hF

section
variable {α : Type} [DecidableEq α]

theorem prods_congr {c : List (α × α × α)} {τ τ' : α → Term} (h : ∀ a, Input c a → τ a = τ' a) :
    prods τ c = prods τ' c := by
  induction c generalizing τ τ' with
  | nil => rfl
  | cons t c ih =>
    obtain ⟨x, y, z⟩ := t
    have hx := h x (Or.inl rfl)
    have hy := h y (Or.inr (Or.inl rfl))
    simp only [prods, hx, hy]
    congr 1
    refine ih fun a ha => ?_
    by_cases haz : a = z
    · subst haz; simp
    · rw [Function.update_of_ne haz, Function.update_of_ne haz]
      exact h a (Or.inr (Or.inr ⟨haz, ha⟩))

theorem vals_of_not_made {c : List (α × α × α)} {τ : α → Term} {a : α} (h : a ∉ made c) : vals τ c a = τ a := by
  induction c generalizing τ with
  | nil => rfl
  | cons t c ih =>
    obtain ⟨x, y, z⟩ := t
    simp only [made, List.map_cons, List.mem_cons, not_or] at h
    rw [vals, ih h.2, Function.update_of_ne h.1]

theorem made_append (c d : List (α × α × α)) : made (c ++ d) = made c ++ made d := by simp [made]

theorem input_append {c d : List (α × α × α)} {a : α} (h : Input (c ++ d) a) : Input c a ∨ Input d a := by
  induction c with
  | nil => exact Or.inr h
  | cons t c ih =>
    obtain ⟨x, y, z⟩ := t
    rcases h with rfl | rfl | h
    · exact Or.inl (Or.inl rfl)
    · exact Or.inl (Or.inr (Or.inl rfl))
    · rcases ih h.2 with h' | h'
      · exact Or.inl (Or.inr (Or.inr ⟨h.1, h'⟩))
      · exact Or.inr h'

end

theorem mergeLoop_spec (n i : ℕ) (path : List (ℕ × ℕ)) (m : ℕ) (L M : List Lbl)
    (hL : L.Nodup) (hlen : L.length + m = n) (c : List (Lbl × Lbl × Lbl)) (hxy : ∀ s ∈ path, s.1 ≠ s.2)
    (hc : triples (fun j => Lbl.made i (n - 2 - j)) m L path = some c)
    (hk : Ok L c) (hM : M.Nodup) (hf : Fresh M c) :
    (Ok M c → mergeLoop i L M path = .ok (final M c, lin M c)) ∧
    (¬ Ok M c → mergeLoop i L M path = .error .valueError) := by
  induction path generalizing m L M c with
  | nil =>
    simp only [triples, Option.some.injEq] at hc
    subst hc
    exact ⟨fun _ => rfl, fun h => absurd trivial h⟩
  | cons s path ih =>
    obtain ⟨x, y⟩ := s
    have hne : x ≠ y := hxy (x, y) (by simp)
    unfold triples at hc
    cases hp : popPair L x y with
    | none => rw [hp] at hc; cases hc
    | some r =>
      obtain ⟨a, b, rest⟩ := r
      rw [hp] at hc
      simp only at hc
      obtain ⟨ha, hb, hab, hrest, -, -⟩ := popPair_nodup hL hne hp
      cases hc' : triples (fun j => Lbl.made i (n - 2 - j)) (m + 1) (rest ++ [Lbl.made i (n - 2 - m)]) path with
      | none => rw [hc'] at hc; cases hc
      | some c' =>
        rw [hc'] at hc
        simp only [Option.map_some, Option.some.injEq] at hc
        subst hc
        obtain ⟨h1, h2, h3, h4, h5⟩ := hk
        have hst : rest ++ [Lbl.made i (n - 2 - m)] = stepL L a b (Lbl.made i (n - 2 - m)) := by rw [hrest]; rfl
        have hll := length_stepL (z := Lbl.made i (n - 2 - m)) h1 h2 h3
        have hrl : rest.length = n - 2 - m := by
          have : (rest ++ [Lbl.made i (n - 2 - m)]).length = rest.length + 1 := by simp
          rw [hst] at this; omega
        obtain ⟨g1, g2⟩ := hf.step hM
        have IH := ih (m + 1) (stepL L a b (Lbl.made i (n - 2 - m))) (stepL M a b (Lbl.made i (n - 2 - m)))
          (nodup_stepL hL h4) (by omega) c' (fun s hs => hxy s (by simp [hs])) (by rw [← hst]; exact hc') h5
          (nodup_stepL hM g1) g2
        by_cases hm : a ∈ M ∧ b ∈ M
        · have e : (M.eraseIdx (max (M.idxOf a) (M.idxOf b))).eraseIdx (min (M.idxOf a) (M.idxOf b)) ++
              [Lbl.made i (n - 2 - m)] = stepL M a b (Lbl.made i (n - 2 - m)) := by
            rw [eraseIdx_pair hM hm.1 hm.2 hab]; rfl
          constructor
          · intro hkM
            simp only [mergeLoop, hp, hrl, if_pos hm, e, hst, IH.1 hkM.2.2.2.2]
            rfl
          · intro hkM
            have : ¬ Ok (stepL M a b (Lbl.made i (n - 2 - m))) c' := fun h => hkM ⟨hm.1, hm.2, hab, g1, h⟩
            simp only [mergeLoop, hp, hrl, if_pos hm, e, hst, IH.2 this]
        · constructor
          · intro hkM; exact absurd ⟨hkM.1, hkM.2.1⟩ hm
          · intro _
            simp only [mergeLoop, hp, if_neg hm]

/-- Tensor labels stand for tensors. -/
def τ0 : Lbl → Term
  | .tensor k => .tensor k
  | .made _ _ => .tensor 0

/-- A valid path as contractions of labels. -/
theorem valid_triples {n : ℕ} {path : List (ℕ × ℕ)} (i : ℕ) {F : List Term}
    (h : replay ((List.range n).map .tensor) path = some F) :
    ∃ c, triples (fun j => Lbl.made i (n - 2 - j)) 0 ((List.range n).map Lbl.tensor) path = some c ∧
      Ok ((List.range n).map Lbl.tensor) c ∧
      made c = (List.range' 0 path.length).map (fun j => Lbl.made i (n - 2 - j)) ∧
      trace ((List.range n).map .tensor) path = prods τ0 c ∧ (made c).Nodup ∧
      (∀ k, Touches n path k ↔ Input c (.tensor k)) ∧ (∀ a, Input c a → ∃ k, a = .tensor k) ∧
      F = (final ((List.range n).map Lbl.tensor) c).map (vals τ0 c) := by
  have hnd : ((List.range n).map Lbl.tensor).Nodup :=
    List.nodup_range.map (fun a b h => by injection h)
  have e : ((List.range n).map Lbl.tensor).map τ0 = (List.range n).map Term.tensor := by
    rw [List.map_map]; rfl
  obtain ⟨hl, hl'⟩ := replay_length h
  have hlen : path = [] ∨ path.length + 1 ≤ n := by
    by_cases hp : path = []
    · exact Or.inl hp
    · right
      have := List.length_pos_iff.2 (hl' hp)
      simp at hl; omega
  have hinj : ∀ j k, 0 ≤ j → j < 0 + path.length → 0 ≤ k → k < 0 + path.length →
      Lbl.made i (n - 2 - j) = Lbl.made i (n - 2 - k) → j = k := by
    intro j k _ hj _ hk he
    injection he with _ he
    rcases hlen with rfl | hlen
    · simp at hj
    · omega
  rw [← e] at h
  obtain ⟨c, h1, h2, h3, h4, h5⟩ := triples_spec (fun j => Lbl.made i (n - 2 - j)) path 0 _ hnd
    (by intro j _ _ hm; simp at hm) hinj τ0 F h
  rw [e] at h5
  have hfr : Fresh ((List.range n).map Lbl.tensor) c :=
    Fresh.of_made h3 (by intro j _ _ hm; simp at hm) hinj
  have hin : ∀ a, Input c a → ∃ k, a = .tensor k := by
    intro a ha
    obtain ⟨k, -, rfl⟩ := List.mem_map.1 (h2.input hnd ha)
    exact ⟨k, rfl⟩
  refine ⟨c, h1, h2, h3, h5, hfr.1, ?_, hin, h4⟩
  intro k
  unfold Touches
  rw [h5, prods_tensors]
  constructor
  · rintro ⟨a, ha, hk⟩
    obtain ⟨k', rfl⟩ := hin a ha
    simp only [τ0, Term.tensors, List.mem_singleton] at hk
    rw [hk]; exact ha
  · intro hk
    exact ⟨_, hk, by simp [τ0, Term.tensors]⟩

theorem input_append_right {α : Type} [DecidableEq α] {c d : List (α × α × α)} {a : α} (h : Input d a) (hm : a ∉ made c) :
    Input (c ++ d) a := by
  induction c with
  | nil => exact h
  | cons t c ih =>
    obtain ⟨x, y, z⟩ := t
    simp only [made, List.map_cons, List.mem_cons, not_or] at hm
    exact Or.inr (Or.inr ⟨hm.1, ih hm.2⟩)

theorem mergeAll_spec (n : ℕ) (paths : List (List (ℕ × ℕ))) (i : ℕ) (M : List Lbl) (hM : M.Nodup)
    (hlt : ∀ j l, Lbl.made j l ∈ M → j < i) (hv : ∀ p ∈ paths, ValidPath n p) :
    ∃ c : List (Lbl × Lbl × Lbl),
      (Ok M c ↔ paths.Pairwise (fun p q => ∀ k, ¬ (Touches n p k ∧ Touches n q k)) ∧
        ∀ p ∈ paths, ∀ k, Touches n p k → Lbl.tensor k ∈ M) ∧
      (Ok M c → mergeAll n i M paths = .ok (final M c, lin M c)) ∧
      (¬ Ok M c → mergeAll n i M paths = .error .valueError) ∧
      prods τ0 c = (paths.map (trace ((List.range n).map .tensor))).flatten ∧
      c.length = (paths.map List.length).sum ∧
      (∀ a, Input c a → ∃ k, a = .tensor k) := by
  induction paths generalizing i M with
  | nil =>
    exact ⟨[], by simp [Ok], fun _ => rfl, fun h => absurd trivial h, rfl, rfl, fun a h => h.elim⟩
  | cons p paths ih =>
    obtain ⟨F, hF⟩ := hv p (by simp)
    obtain ⟨c, h1, h2, h3, h4, h5, h6, h7, -⟩ := valid_triples i hF
    have hxy : ∀ s ∈ p, s.1 ≠ s.2 := by
      have : ∀ (q : List (ℕ × ℕ)) ts F, replay ts q = some F → ∀ s ∈ q, s.1 ≠ s.2 := by
        intro q
        induction q with
        | nil => simp
        | cons s q ihq =>
          obtain ⟨x, y⟩ := s
          intro ts F hr s hs
          have hne : x ≠ y := by intro e; simp [replay, e] at hr
          rcases List.mem_cons.1 hs with rfl | hs
          · exact hne
          · rw [replay_cons hne] at hr
            cases hp : popPair ts x y with
            | none => rw [hp] at hr; cases hr
            | some r => rw [hp] at hr; exact ihq _ _ hr s hs
      exact this p _ _ hF
    have hnd : ((List.range n).map Lbl.tensor).Nodup := List.nodup_range.map (fun a b h => by injection h)
    have hmade : ∀ a ∈ made c, ∃ l, a = Lbl.made i l := by
      intro a ha; rw [h3] at ha
      obtain ⟨j, -, rfl⟩ := List.mem_map.1 ha
      exact ⟨_, rfl⟩
    have hfL : Fresh ((List.range n).map Lbl.tensor) c := ⟨h5, fun z hz => by
      obtain ⟨l, rfl⟩ := hmade z hz; simp⟩
    have hfM : Fresh M c := ⟨h5, fun z hz hm => by
      obtain ⟨l, rfl⟩ := hmade z hz; exact absurd (hlt _ _ hm) (lt_irrefl _)⟩
    have hloop := mergeLoop_spec n i p 0 _ M hnd (by simp) c hxy h1 h2 hM hfM
    have hokM : Ok M c ↔ ∀ k, Touches n p k → Lbl.tensor k ∈ M := by
      constructor
      · intro h k hk; exact h.input hM ((h6 k).1 hk)
      · intro h
        refine h2.transfer hnd hfL hM hfM fun a ha => ?_
        obtain ⟨k, rfl⟩ := h7 a ha
        exact h k ((h6 k).2 ha)
    have hlen : c.length = p.length := by
      have := congrArg List.length h3; simpa [made] using this
    by_cases hk : Ok M c
    · have hmf : ∀ a, a ∈ final M c ↔ (a ∈ M ∨ a ∈ made c) ∧ a ∉ used c := fun a => mem_final hM hk hfM
      have hmt : ∀ k, Lbl.tensor k ∈ final M c ↔ Lbl.tensor k ∈ M ∧ ¬ Touches n p k := by
        intro k
        rw [hmf, h6]
        have hnm : Lbl.tensor k ∉ made c := fun h => by obtain ⟨l, h⟩ := hmade _ h; cases h
        constructor
        · rintro ⟨h | h, hu⟩
          · exact ⟨h, fun hi => hu (mem_used_of_input hi)⟩
          · exact absurd h hnm
        · rintro ⟨h, hu⟩
          refine ⟨Or.inl h, fun hm => ?_⟩
          rcases input_or_made hm with h' | h'
          · exact hu h'
          · exact hnm h'
      obtain ⟨d, g1, g2, g3, g4, g5, g6⟩ := ih (i + 1) (final M c) (hk.nodup_final hM)
        (by
          intro j l hj
          rcases ((hmf _).1 hj).1 with h | h
          · have := hlt _ _ h; omega
          · obtain ⟨l', h⟩ := hmade _ h; injection h with h; omega)
        (fun q hq => hv q (by simp [hq]))
      refine ⟨c ++ d, ?_, ?_, ?_, ?_, ?_, ?_⟩
      · rw [Ok.append, g1, List.pairwise_cons]
        constructor
        · rintro ⟨-, hd, hq⟩
          refine ⟨⟨fun q hqm k hkk => ((hmt k).1 (hq q hqm k hkk.2)).2 hkk.1, hd⟩, ?_⟩
          intro q hqm k hkk
          rcases List.mem_cons.1 hqm with rfl | hqm
          · exact hokM.1 hk k hkk
          · exact ((hmt k).1 (hq q hqm k hkk)).1
        · rintro ⟨⟨hd1, hd2⟩, hq⟩
          refine ⟨hk, hd2, fun q hqm k hkk => (hmt k).2 ⟨hq q (by simp [hqm]) k hkk, fun hp => hd1 q hqm k ⟨hp, hkk⟩⟩⟩
      · intro hkk
        rw [Ok.append] at hkk
        simp only [mergeAll, hloop.1 hk, g2 hkk.2]
        rw [final_append, lin_append]
      · intro hkk
        have : ¬ Ok (final M c) d := fun h => hkk (Ok.append.2 ⟨hk, h⟩)
        simp only [mergeAll, hloop.1 hk, g3 this]
      · rw [prods_append, List.map_cons, List.flatten_cons, ← h4, ← g4]
        congr 1
        refine prods_congr fun a ha => ?_
        obtain ⟨k, rfl⟩ := g6 a ha
        refine vals_of_not_made fun h => ?_
        obtain ⟨l, h⟩ := hmade _ h; cases h
      · simp [hlen, g5]
      · intro a ha
        rcases input_append ha with h | h
        · exact h7 a h
        · exact g6 a h
    · -- the first path already collides
      have hex : ∃ d : List (Lbl × Lbl × Lbl), prods τ0 d = (paths.map (trace ((List.range n).map .tensor))).flatten ∧
          d.length = (paths.map List.length).sum ∧ (∀ a, Input d a → ∃ k, a = .tensor k) := by
        obtain ⟨d, -, -, -, e1, e2, e3⟩ := ih (i + 1) [] List.nodup_nil (by simp) (fun q hq => hv q (by simp [hq]))
        exact ⟨d, e1, e2, e3⟩
      obtain ⟨d, g4, g5, g6⟩ := hex
      refine ⟨c ++ d, ?_, ?_, ?_, ?_, ?_, ?_⟩
      · rw [Ok.append]
        constructor
        · intro h; exact absurd h.1 hk
        · rintro ⟨-, hq⟩
          exact absurd (hokM.2 (hq p (by simp))) hk
      · intro h; exact absurd (Ok.append.1 h).1 hk
      · intro _; simp only [mergeAll, hloop.2 hk]
      · rw [prods_append, List.map_cons, List.flatten_cons, ← h4, ← g4]
        congr 1
        refine prods_congr fun a ha => ?_
        obtain ⟨k, rfl⟩ := g6 a ha
        refine vals_of_not_made fun h => ?_
        obtain ⟨l, h⟩ := hmade _ h; cases h
      · simp [hlen, g5]
      · intro a ha
        rcases input_append ha with h | h
        · exact h7 a h
        · exact g6 a h

/-- Contracting the first two tensors until one is left. -/
theorem replay_replicate (m : ℕ) (ts : List Term) (h : ts.length = m + 1) :
    ∃ u, replay ts (List.replicate m (0, 1)) = some [u] := by
  induction m generalizing ts with
  | zero =>
    obtain ⟨u, rfl⟩ := List.length_eq_one_iff.1 h
    exact ⟨u, rfl⟩
  | succ m ih =>
    match ts, h with
    | a :: b :: rest, h =>
      obtain ⟨u, hu⟩ := ih (rest ++ [.pair a b]) (by simp at h ⊢; omega)
      exact ⟨u, by simpa [List.replicate_succ, replay] using hu⟩

theorem replay_append {ts : List Term} {p q : List (ℕ × ℕ)} {F : List Term} (h : replay ts p = some F) :
    replay ts (p ++ q) = replay F q := by
  induction p generalizing ts with
  | nil => simp only [replay, Option.some.injEq] at h; subst h; rfl
  | cons s p ih =>
    obtain ⟨x, y⟩ := s
    have hne : x ≠ y := by intro e; simp [replay, e] at h
    rw [replay_cons hne] at h
    rw [List.cons_append, replay_cons hne]
    cases hp : popPair ts x y with
    | none => rw [hp] at h; cases h
    | some r => rw [hp] at h; exact ih h

theorem trace_append {ts : List Term} {p q : List (ℕ × ℕ)} {F : List Term} (h : replay ts p = some F) :
    trace ts (p ++ q) = trace ts p ++ trace F q := by
  induction p generalizing ts with
  | nil => simp only [replay, Option.some.injEq] at h; subst h; rfl
  | cons s p ih =>
    obtain ⟨x, y⟩ := s
    have hne : x ≠ y := by intro e; simp [replay, e] at h
    rw [replay_cons hne] at h
    rw [List.cons_append, trace_cons hne, trace_cons hne]
    cases hp : popPair ts x y with
    | none => rw [hp] at h; cases h
    | some r => rw [hp] at h; simp only [Option.bind_some] at h; simp [ih h]

end Linear
end TNCO
