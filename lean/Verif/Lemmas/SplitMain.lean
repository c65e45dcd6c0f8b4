import Verif.Lemmas.Split

/-! Splitting paths: assembling the pieces. -/

namespace TNCO
namespace Linear

theorem replay_ne {path : List (ℕ × ℕ)} {ts F : List Term} (h : replay ts path = some F) : ∀ s ∈ path, s.1 ≠ s.2 := by
  induction path generalizing ts with
  | nil => simp
  | cons s q ihq =>
    obtain ⟨x, y⟩ := s
    intro s hs
    have hne : x ≠ y := by intro e; simp [replay, e] at h
    rcases List.mem_cons.1 hs with rfl | hs
    · exact hne
    · rw [replay_cons hne] at h
      cases hp : popPair ts x y with
      | none => rw [hp] at h; cases h
      | some r => rw [hp] at h; exact ihq h s hs

theorem mem_descs {L : List ℕ} {D : ℕ → Finset ℕ} {c} (hn : L.Nodup) (hk : Ok L c) (t : ℕ) :
    (∃ r ∈ final L c, t ∈ descs D c r) ↔ (∃ a ∈ L, t ∈ D a) ∨ t ∈ made c := by
  induction c generalizing L D with
  | nil => simp [final, descs, made]
  | cons u c ih =>
    obtain ⟨x, y, z⟩ := u
    obtain ⟨h1, h2, h3, h4, h5⟩ := hk
    simp only [final, descs]
    rw [ih (nodup_stepL hn h4) h5]
    have e : t ∈ made ((x, y, z) :: c) ↔ t = z ∨ t ∈ made c := by simp [made]
    rw [e]
    constructor
    · rintro (⟨a, ha, hm⟩ | h)
      · by_cases haz : a = z
        · subst haz
          rw [Function.update_self] at hm
          simp only [Finset.mem_union, Finset.mem_singleton] at hm
          rcases hm with (hm | hm) | hm
          · exact Or.inl ⟨x, h1, hm⟩
          · exact Or.inl ⟨y, h2, hm⟩
          · exact Or.inr (Or.inl hm)
        · rw [Function.update_of_ne haz] at hm
          exact Or.inl ⟨a, (((mem_stepL hn).1 ha).resolve_right haz).1, hm⟩
      · exact Or.inr (Or.inr h)
    · rintro (⟨a, ha, hm⟩ | rfl | h)
      · by_cases hax : a = x
        · subst hax
          exact Or.inl ⟨z, (mem_stepL hn).2 (Or.inr rfl), by rw [Function.update_self]; simp [hm]⟩
        by_cases hay : a = y
        · subst hay
          exact Or.inl ⟨z, (mem_stepL hn).2 (Or.inr rfl), by rw [Function.update_self]; simp [hm]⟩
        exact Or.inl ⟨a, (mem_stepL hn).2 (Or.inl ⟨ha, hax, hay⟩), by
          rwa [Function.update_of_ne (by rintro rfl; exact h4 ha)]⟩
      · exact Or.inl ⟨t, (mem_stepL hn).2 (Or.inr rfl), by rw [Function.update_self]; simp⟩
      · exact Or.inr h

theorem vals_tensors {n : ℕ} {L : List ℕ} {D : ℕ → Finset ℕ} {τ : ℕ → Term} {c} (hn : L.Nodup) (hk : Ok L c)
    (hm : ∀ z ∈ made c, n < z) (h : ∀ a ∈ L, ∀ k, k ∈ (τ a).tensors ↔ k < n ∧ k ∈ D a) :
    ∀ r ∈ final L c, ∀ k, k ∈ (vals τ c r).tensors ↔ k < n ∧ k ∈ descs D c r := by
  induction c generalizing L D τ with
  | nil => exact h
  | cons u c ih =>
    obtain ⟨x, y, z⟩ := u
    obtain ⟨h1, h2, h3, h4, h5⟩ := hk
    refine ih (nodup_stepL hn h4) h5 (fun w hw => hm w (by simp only [made, List.map_cons, List.mem_cons]; exact Or.inr hw)) ?_
    intro a ha k
    by_cases haz : a = z
    · subst haz
      have := hm a (by simp [made])
      rw [Function.update_self, Function.update_self]
      simp only [Term.tensors, List.mem_append, Finset.mem_union, Finset.mem_singleton, h x h1, h y h2]
      constructor
      · rintro (h | h) <;> exact ⟨h.1, by tauto⟩
      · rintro ⟨hkn, (h | h) | h⟩
        · exact Or.inl ⟨hkn, h⟩
        · exact Or.inr ⟨hkn, h⟩
        · omega
    · rw [Function.update_of_ne haz, Function.update_of_ne haz]
      exact h a (((mem_stepL hn).1 ha).resolve_right haz).1 k

theorem prods_cov {cc : List (Finset ℕ)} {L : List ℕ} {τ : ℕ → Term} {c : List (ℕ × ℕ × ℕ)} (hn : L.Nodup)
    (hk : Ok L c) (hcl : ∀ s ∈ cc, Closed (· ∈ s) c) (hcov : ∀ a ∈ L, ∃ s ∈ cc, a ∈ s)
    (hq : ∀ a ∈ L, ∀ s ∈ cc, a ∈ s → ∀ i ∈ (τ a).tensors, i ∈ s) :
    ∀ t ∈ prods τ c, ∃ s ∈ cc, ∀ i ∈ t.tensors, i ∈ s := by
  induction c generalizing L τ with
  | nil => intro t ht; cases ht
  | cons u c ih =>
    obtain ⟨x, y, z⟩ := u
    obtain ⟨h1, h2, h3, h4, h5⟩ := hk
    have key : ∀ s ∈ cc, z ∈ s → ∀ i ∈ (Term.pair (τ x) (τ y)).tensors, i ∈ s := by
      intro s hs hz i hi
      obtain ⟨e1, e2⟩ := hcl s hs (x, y, z) (by simp)
      rcases List.mem_append.1 hi with hi | hi
      · exact hq x h1 s hs (e1.2 hz) i hi
      · exact hq y h2 s hs (e2.2 hz) i hi
    obtain ⟨s, hs, hxs⟩ := hcov x h1
    have hzs := (hcl s hs (x, y, z) (by simp)).1.1 hxs
    intro t ht
    rcases List.mem_cons.1 ht with rfl | ht
    · exact ⟨s, hs, key s hs hzs⟩
    · refine ih (nodup_stepL hn h4) h5 (fun s hs t ht => hcl s hs t (by simp [ht])) ?_ ?_ t ht
      · intro a ha
        rcases (mem_stepL hn).1 ha with h | rfl
        · exact hcov a h.1
        · exact ⟨s, hs, hzs⟩
      · intro a ha s hs has
        by_cases haz : a = z
        · subst haz; rw [Function.update_self]; exact key s hs has
        · rw [Function.update_of_ne haz]
          exact hq a (((mem_stepL hn).1 ha).resolve_right haz).1 s hs has

theorem sortSet_eq {s : Finset ℕ} {l : List ℕ} (hl : l.Pairwise (· < ·)) (h : ∀ t, t ∈ l ↔ t ∈ s) : sortSet s = l := by
  have hs : (sortSet s).Pairwise (· < ·) := List.Pairwise.filter _ List.pairwise_lt_range
  have hm : ∀ t, t ∈ sortSet s ↔ t ∈ s := by
    intro t
    unfold sortSet
    rw [List.mem_filter, List.mem_range]
    constructor
    · rintro ⟨-, h⟩; simpa using h
    · intro h
      have := Finset.le_sup (f := id) h
      exact ⟨by simp only [id] at this; omega, by simpa using h⟩
  refine eq_of_sorted (hs.imp (fun h => le_of_lt h)) (hl.imp (fun h => le_of_lt h))
    (hs.imp (fun h => ne_of_lt h)) (hl.imp (fun h => ne_of_lt h)) ?_
  intro t; rw [hm, h]

theorem flatMap_filter_perm {β γ : Type} (P : γ → β → Bool) (cs : List γ) (l : List β)
    (hd : cs.Pairwise fun s s' => ∀ x ∈ l, ¬ (P s x = true ∧ P s' x = true)) (hc : ∀ x ∈ l, ∃ s ∈ cs, P s x = true) :
    (cs.flatMap fun s => l.filter (P s)).Perm l := by
  induction cs generalizing l with
  | nil =>
    cases l with
    | nil => exact List.Perm.refl _
    | cons x l => obtain ⟨s, hs, -⟩ := hc x (by simp); cases hs
  | cons s cs ih =>
    rw [List.pairwise_cons] at hd
    have h1 := ih (l.filter fun x => !P s x)
      (hd.2.imp (fun h x hx => h x (List.mem_filter.1 hx).1))
      (by
        intro x hx
        obtain ⟨hx, hn⟩ := List.mem_filter.1 hx
        obtain ⟨s', hs', hp⟩ := hc x hx
        rcases List.mem_cons.1 hs' with rfl | hs'
        · simp [hp] at hn
        · exact ⟨s', hs', hp⟩)
    have h2 : (cs.flatMap fun s' => (l.filter fun x => !P s x).filter (P s')) = cs.flatMap fun s' => l.filter (P s') := by
      have : ∀ s' ∈ cs, (l.filter fun x => !P s x).filter (P s') = l.filter (P s') := by
        intro s' hs'
        rw [List.filter_filter]
        refine List.filter_congr fun x hx => ?_
        have := hd.1 s' hs' x hx
        cases h3 : P s' x <;> cases h4 : P s x <;> simp_all
      simp only [List.flatMap]
      rw [List.map_congr_left this]
    rw [h2] at h1
    rw [List.flatMap_cons]
    exact (h1.append_left _).trans (List.filter_append_perm _ _)

/-- Everything about the two loops of `split_contraction_path` on a valid path. -/
theorem split_core {n : ℕ} {path : List (ℕ × ℕ)} {F : List Term} (h : replay (initTerms n) path = some F) :
    ∃ (c : List (ℕ × ℕ × ℕ)) (cc : List (Finset ℕ)) (s : Colors), colorLoop n (initColors n) path = .ok s ∧
      cc = s.color2tensors.map Prod.snd ∧
      Ok (List.range n) c ∧ Fresh (List.range n) c ∧ made c = (List.range' 0 path.length).map (fun j => n + 1 + j) ∧
      triples (fun j => n + 1 + j) 0 (List.range n) path = some c ∧
      F = (final (List.range n) c).map (vals Term.tensor c) ∧ trace (initTerms n) path = prods Term.tensor c ∧
      cc.Perm ((final (List.range n) c).map (descs (fun a => {a}) c)) ∧
      DInv (final (List.range n) c) (descs (fun a => {a}) c) [] ∧
      (∀ s ∈ cc, Closed (· ∈ s) c) ∧ cc.Pairwise Disjoint ∧
      (∀ t, (∃ s ∈ cc, t ∈ s) ↔ t < n ∨ t ∈ made c) := by
  have hnd : (List.range n).Nodup := List.nodup_range
  have hnew : ∀ j, 0 ≤ j → j < 0 + path.length → n + 1 + j ∉ List.range n := by
    intro j _ _ hm; rw [List.mem_range] at hm; omega
  have hinj : ∀ j k, 0 ≤ j → j < 0 + path.length → 0 ≤ k → k < 0 + path.length → n + 1 + j = n + 1 + k → j = k := by
    intro j k _ _ _ _ he; omega
  obtain ⟨c, h1, h2, h3, h4, h5⟩ := triples_spec (fun j => n + 1 + j) path 0 _ hnd hnew hinj Term.tensor F h
  have hf : Fresh (List.range n) c := Fresh.of_made h3 hnew hinj
  have hD : DInv (List.range n) (fun a => {a}) c := by
    refine ⟨by simp, ?_, ?_, hf.1⟩
    · intro a _ b _ t ha hb
      rw [Finset.mem_singleton] at ha hb; rw [← ha, hb]
    · intro a ha z hz hm
      rw [Finset.mem_singleton] at hm
      subst hm; exact hf.2 _ hz ha
  obtain ⟨s, g1, g2⟩ := colorLoop_spec n path 0 (initColors n) id (fun a => {a}) c (replay_ne h) h1 h2 hnd hD
    (List.Perm.refl _) (by simpa [initColors] using hnd) (by
      intro a ha t ht
      rw [Finset.mem_singleton] at ht
      subst ht
      have : t < n := List.mem_range.1 ha
      simp [initColors, this])
  obtain ⟨d1, d2⟩ := hD.final hnd h2
  refine ⟨c, _, s, g1, rfl, h2, hf, h3, h1, h4, h5, g2, d1, ?_, ?_, ?_⟩
  · intro s hs
    obtain ⟨r, hr, rfl⟩ := List.mem_map.1 (g2.mem_iff.1 hs)
    exact (d2 r hr).2
  · refine (g2.pairwise_iff (fun h => Disjoint.symm h)).2 ?_
    rw [List.pairwise_map]
    refine (h2.nodup_final hnd).imp_of_mem ?_
    intro a b ha hb hab
    rw [Finset.disjoint_left]
    intro t h1 h2
    exact hab (d1.disj a ha b hb t h1 h2)
  · intro t
    have := mem_descs (D := fun a => {a}) hnd h2 t
    simp only [Finset.mem_singleton] at this
    constructor
    · rintro ⟨s, hs, ht⟩
      obtain ⟨r, hr, rfl⟩ := List.mem_map.1 (g2.mem_iff.1 hs)
      rcases this.1 ⟨r, hr, ht⟩ with ⟨a, ha, rfl⟩ | h
      · exact Or.inl (List.mem_range.1 ha)
      · exact Or.inr h
    · intro ht
      obtain ⟨r, hr, ht⟩ := this.2 (ht.imp (fun h => ⟨t, List.mem_range.2 h, rfl⟩) id)
      exact ⟨_, g2.mem_iff.2 (List.mem_map_of_mem hr), ht⟩

theorem split_main {n : ℕ} {path : List (ℕ × ℕ)} {F : List Term} (h : replay (initTerms n) path = some F) (norm : Bool) :
    ∃ paths comps, splitPath n path norm = .ok (paths, comps) ∧ paths.length = comps.length ∧
      comps.Perm (F.map fun u => u.tensors.toFinset) ∧ comps.Pairwise Disjoint ∧
      (∀ k, (∃ s ∈ comps, k ∈ s) ↔ k < n) ∧
      (∀ t ∈ trace (initTerms n) path, ∃ s ∈ comps, ∀ i ∈ t.tensors, i ∈ s) ∧
      ∀ k (hk : k < paths.length) (hk' : k < comps.length), ∃ G,
        replay ((if norm then (List.range n).filter (· ∈ comps[k]) else List.range n).map .tensor) paths[k] = some G ∧
        (norm = true → ∃ u ∈ F, u.tensors.toFinset = comps[k] ∧ ∃ v, G = [v] ∧ v.Same u) ∧
        List.Forall₂ Term.Same
          (trace ((if norm then (List.range n).filter (· ∈ comps[k]) else List.range n).map .tensor) paths[k])
          ((trace (initTerms n) path).filter fun t => ∀ i ∈ t.tensors, i ∈ comps[k]) := by
  obtain ⟨c, cc, s, h1, hcc, h2, hf, hmade, htr, hF, htrace, hperm, hD, hcl, hdis, hcov⟩ := split_core h
  have hnd : (List.range n).Nodup := List.nodup_range
  have hgt : ∀ z ∈ made c, n < z := by
    intro z hz; rw [hmade] at hz; obtain ⟨j, -, rfl⟩ := List.mem_map.1 hz; omega
  have hgd : ∀ k, k < cc.length → cc.getD k ∅ ∈ cc := by
    intro k hk; rw [List.getD_eq_getElem _ _ hk]; exact List.getElem_mem hk
  -- filtered contractions
  have hokf : ∀ s ∈ cc, Ok ((List.range n).filter (· ∈ s)) (part s c) ∧
      final ((List.range n).filter (· ∈ s)) (part s c) = (final (List.range n) c).filter (· ∈ s) :=
    fun s hs => Ok.filter (· ∈ s) hnd h2 (hcl s hs)
  have hffr : ∀ s : Finset ℕ, Fresh (List.range n) (part s c) := fun s => hf.filter _
  have hndf : ∀ s : Finset ℕ, ((List.range n).filter (· ∈ s)).Nodup := fun s => hnd.filter _
  have hffr' : ∀ s : Finset ℕ, Fresh ((List.range n).filter (· ∈ s)) (part s c) := fun s =>
    ⟨(hffr s).1, fun z hz hm => (hffr s).2 z hz (List.mem_filter.1 hm).1⟩
  have hokr : ∀ s ∈ cc, Ok (List.range n) (part s c) := fun s hs =>
    (hokf s hs).1.transfer (hndf s) (hffr' s) hnd (hffr s) fun a ha =>
      (List.mem_filter.1 ((hokf s hs).1.input (hndf s) ha)).1
  have hsort : ∀ s ∈ cc, sortSet s = (List.range n).filter (· ∈ s) ++ made (part s c) := by
    intro s hs
    refine sortSet_eq ?_ ?_
    · rw [List.pairwise_append]
      refine ⟨List.Pairwise.filter _ List.pairwise_lt_range, ?_, ?_⟩
      · refine List.Pairwise.sublist (made_filter_sublist _ c) ?_
        rw [hmade, List.pairwise_map]
        refine (List.pairwise_lt_range' (s := 0) (n := path.length)).imp ?_
        intro a b hab; omega
      · intro a ha b hb
        have h1 := List.mem_range.1 (List.mem_filter.1 ha).1
        have h2 := hgt b ((made_filter_sublist _ c).subset hb)
        omega
    · intro t
      rw [List.mem_append, List.mem_filter, List.mem_range, decide_eq_true_eq]
      have hmp : t ∈ made (part s c) ↔ t ∈ made c ∧ t ∈ s := by
        unfold made part
        simp only [List.mem_map, List.mem_filter, decide_eq_true_eq]
        constructor
        · rintro ⟨u, ⟨hu, hus⟩, rfl⟩
          exact ⟨⟨u, hu, rfl⟩, (hcl s hs u hu).1.1 hus⟩
        · rintro ⟨⟨u, hu, rfl⟩, hus⟩
          exact ⟨u, ⟨hu, (hcl s hs u hu).1.2 hus⟩, rfl⟩
      rw [hmp]
      constructor
      · rintro (h | h) <;> exact h.2
      · intro ht
        rcases (hcov t).1 ⟨s, hs, ht⟩ with h | h
        · exact Or.inl ⟨h, ht⟩
        · exact Or.inr ⟨h, ht⟩
  set lists := if norm then cc.map sortSet else cc.map fun _ => List.range n with hlists
  set T : ℕ → List ℕ := fun k => if norm then (List.range n).filter (· ∈ cc.getD k ∅) else List.range n with hT
  have hdi : ∀ i j, i < cc.length → j < cc.length → ∀ t, t ∈ cc.getD i ∅ → t ∈ cc.getD j ∅ → i = j := by
    intro i j hi hj t h1 h2
    rw [List.getD_eq_getElem _ _ hi] at h1
    rw [List.getD_eq_getElem _ _ hj] at h2
    rw [List.pairwise_iff_getElem] at hdis
    by_contra hne
    rcases lt_or_gt_of_ne hne with hlt | hlt
    · exact Finset.disjoint_left.1 (hdis i j hi hj hlt) h1 h2
    · exact Finset.disjoint_left.1 (hdis j i hj hi hlt) h2 h1
  have hTk : ∀ k, k < cc.length → (T k).Nodup ∧ Ok (T k) (part (cc.getD k ∅) c) := by
    intro k hk
    simp only [hT]
    cases norm with
    | true => exact ⟨hndf _, (hokf _ (hgd k hk)).1⟩
    | false => exact ⟨hnd, hokr _ (hgd k hk)⟩
  obtain ⟨paths, e1, e2, e3⟩ := splitLoop_spec n cc path 0 (List.range n) lists (cc.map fun _ => []) T c (replay_ne h) htr h2 hnd
    hdi
    (by
      intro a ha
      obtain ⟨s, hs, has⟩ := (hcov a).2 (Or.inl (List.mem_range.1 ha))
      obtain ⟨k, hk, rfl⟩ := List.mem_iff_getElem.1 hs
      exact ⟨k, hk, by rwa [List.getD_eq_getElem _ _ hk]⟩)
    (fun k hk => hcl _ (hgd k hk))
    (by simp only [hlists]; split <;> simp) (by simp)
    (by
      intro k hk
      refine ⟨(hTk k hk).1, (hTk k hk).2, ?_⟩
      simp only [hT, hlists]
      cases norm with
      | true =>
        right
        refine ⟨[], ?_⟩
        simp only [if_true]
        rw [List.getD_eq_getElem _ _ (by simpa using hk), List.getElem_map, List.append_nil, List.getD_eq_getElem _ _ hk]
        exact hsort _ (List.getElem_mem hk)
      | false =>
        left
        simp only [Bool.false_eq_true, if_false]
        rw [List.getD_eq_getElem _ _ (by simpa using hk), List.getElem_map])
  have hvt := vals_tensors (n := n) (D := fun a => {a}) (τ := Term.tensor) hnd h2 hgt (by
    intro a ha k
    have := List.mem_range.1 ha
    simp only [Term.tensors, List.mem_singleton, Finset.mem_singleton]
    constructor
    · rintro rfl; exact ⟨this, rfl⟩
    · exact fun h => h.2)
  have hvs : ∀ r ∈ final (List.range n) c, (vals Term.tensor c r).tensors.toFinset =
      (descs (fun a => {a}) c r).filter (· < n) := by
    intro r hr
    ext k
    rw [List.mem_toFinset, hvt r hr k, Finset.mem_filter]; tauto
  have hpl : paths.length = (cc.map fun s => s.filter (· < n)).length := by rw [List.length_map]; exact e2
  refine ⟨paths, cc.map fun s => s.filter (· < n), ?_, hpl, ?_, ?_, ?_, ?_, ?_⟩
  · simp only [splitPath, h1, ← hcc]
    have := e1
    rw [Nat.add_zero] at this
    rw [← hlists, this]
  · refine (hperm.map _).trans (List.Perm.of_eq ?_)
    rw [hF, List.map_map, List.map_map]
    refine List.map_congr_left fun r hr => ?_
    exact (hvs r hr).symm
  · rw [List.pairwise_map]
    refine hdis.imp fun h => ?_
    exact Finset.disjoint_of_subset_left (Finset.filter_subset _ _)
      (Finset.disjoint_of_subset_right (Finset.filter_subset _ _) h)
  · intro k
    constructor
    · rintro ⟨s, hs, hk⟩
      obtain ⟨s', -, rfl⟩ := List.mem_map.1 hs
      exact (Finset.mem_filter.1 hk).2
    · intro hk
      obtain ⟨s, hs, has⟩ := (hcov k).2 (Or.inl hk)
      exact ⟨_, List.mem_map_of_mem hs, Finset.mem_filter.2 ⟨has, hk⟩⟩
  · intro t ht
    have hlt : ∀ i ∈ t.tensors, i < n := by
      intro i hi
      rw [htrace] at ht
      obtain ⟨a, ha, hia⟩ := (prods_tensors Term.tensor i).1 ⟨t, ht, hi⟩
      have := List.mem_range.1 (h2.input hnd ha)
      simp only [Term.tensors, List.mem_singleton] at hia
      omega
    rw [htrace] at ht
    obtain ⟨s, hs, hi⟩ := prods_cov (cc := cc) (τ := Term.tensor) hnd h2 hcl
      (fun a ha => (hcov a).2 (Or.inl (List.mem_range.1 ha)))
      (by
        intro a _ s _ has i hi
        simp only [Term.tensors, List.mem_singleton] at hi
        rwa [hi]) t ht
    exact ⟨_, List.mem_map_of_mem hs, fun i hit => Finset.mem_filter.2 ⟨hi i hit, hlt i hit⟩⟩
  · intro k hk hk'
    have hkc : k < cc.length := by rw [e2] at hk; exact hk
    have hmem := hgd k hkc
    set s := cc.getD k ∅ with hs
    have hck : (cc.map fun s => s.filter (· < n))[k] = s.filter (· < n) := by
      rw [List.getElem_map, hs, List.getD_eq_getElem _ _ hkc]
    have hpk : paths[k] = lin (T k) (part s c) := by
      have := e3 k hkc
      rw [List.getD_eq_getElem _ _ hk] at this
      rw [this, List.getD_eq_getElem _ _ (by simpa using hkc), List.getElem_map, List.nil_append]
    have hTeq : (if norm then (List.range n).filter (· ∈ (cc.map fun s => s.filter (· < n))[k]) else List.range n) = T k := by
      simp only [hT]
      cases norm with
      | true =>
        simp only [if_true]
        refine List.filter_congr fun a ha => ?_
        have := List.mem_range.1 ha
        rw [hck, ← hs]
        simp [Finset.mem_filter, this]
      | false => rfl
    obtain ⟨σ, s1, s2, s3⟩ := lin_spec (hTk k hkc).1 (hTk k hkc).2 Term.tensor Term.tensor (fun a _ => .tensor a)
    refine ⟨(final (T k) (part s c)).map σ, ?_, ?_, ?_⟩
    · rw [hTeq, hpk]; exact s1
    · intro hnorm
      subst hnorm
      obtain ⟨r, hr, hrs⟩ := List.mem_map.1 (hperm.mem_iff.1 hmem)
      have hfin : final (T k) (part s c) = [r] := by
        have e : T k = (List.range n).filter (· ∈ s) := by simp only [hT, if_true]; rfl
        rw [e, (hokf s hmem).2]
        have hnf := (h2.nodup_final hnd).filter (· ∈ s)
        have hm : ∀ a, a ∈ (final (List.range n) c).filter (· ∈ s) ↔ a = r := by
          intro a
          rw [List.mem_filter, decide_eq_true_eq]
          constructor
          · rintro ⟨ha, has⟩
            rw [← hrs] at has
            exact hD.disj a ha r hr a (hD.self a ha) has
          · rintro rfl
            exact ⟨hr, hrs ▸ hD.self a hr⟩
        rw [← List.perm_singleton]
        refine (List.perm_ext_iff_of_nodup hnf (List.nodup_singleton _)).2 fun a => ?_
        rw [hm, List.mem_singleton]
      refine ⟨vals Term.tensor c r, ?_, ?_, σ r, by rw [hfin]; rfl, ?_⟩
      · rw [hF]; exact List.mem_map_of_mem hr
      · rw [hvs r hr, hck, hrs]
      · have := s2 r (by rw [hfin]; simp)
        rwa [show part s c = c.filter (fun t => t.1 ∈ s) from rfl,
          vals_filter (· ∈ s) (hcl s hmem) (τ' := Term.tensor) (fun _ _ => rfl) (by
            show r ∈ s
            rw [← hrs]; exact hD.self r hr)] at this
    · rw [hTeq, hpk, htrace]
      rw [show part s c = c.filter (fun t => t.1 ∈ s) from rfl] at s3 ⊢
      rw [prods_filter (· ∈ s) (· ∈ s.filter (· < n)) (hcl s hmem) hnd h2 (τ' := Term.tensor) (fun _ _ => rfl) (by
        intro a ha
        have := List.mem_range.1 ha
        simp [Term.tensors, this])] at s3
      rw [hck]
      exact s3

end Linear
end TNCO
