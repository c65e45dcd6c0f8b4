import Verif.Lemmas.CircuitWires
import Verif.Lemmas.ClassValue

/-! The network of a circuit after hyper-indices were decomposed. -/

namespace TNCO
variable {ι K : Type} [DecidableEq ι] [Field K]

theorem binVal_zero (l : List ι) : binVal (l.map fun _ => 0) = 0 := by
  unfold binVal
  induction l with
  | nil => rfl
  | cons _ l ih => simpa using ih

theorem binVal_one (l : List ι) : binVal (l.map fun _ => 1) = 2 ^ l.length - 1 := by
  rw [binVal_ravel]
  induction l with
  | nil => rfl
  | cons _ l ih =>
    simp only [List.map_cons, ravel, List.length_cons, pow_succ]
    rw [ih]
    have : 0 < 2 ^ l.length := Nat.two_pow_pos _
    simp only [List.map_const', List.prod_replicate]
    omega

/-- The Kronecker delta. -/
theorem delta_get {y : ι} {zs : List ι} {f : ι → ℕ} (hf : ∀ z ∈ y :: zs, f z < 2) :
    (deltaArray (K := K) (y :: zs).length).get ((y :: zs).map f) = if ∀ z ∈ zs, f z = f y then 1 else 0 := by
  have e : ravel (List.replicate (y :: zs).length 2) ((y :: zs).map f) = binVal ((y :: zs).map f) := by
    rw [binVal_ravel, List.map_const']
  unfold deltaArray NDArray.get
  simp only
  rw [e]
  have h0 : binVal ((y :: zs).map f) = 0 ↔ ∀ z ∈ y :: zs, f z = 0 := by
    conv_lhs => rw [← binVal_zero (y :: zs)]
    exact ⟨fun h => binVal_inj hf (fun _ _ => by norm_num) h, fun h => by rw [List.map_congr_left h]⟩
  have h1 : binVal ((y :: zs).map f) = 2 ^ (y :: zs).length - 1 ↔ ∀ z ∈ y :: zs, f z = 1 := by
    rw [← binVal_one (y :: zs)]
    exact ⟨fun h => binVal_inj hf (fun _ _ => by norm_num) h, fun h => by rw [List.map_congr_left h]⟩
  have key : (binVal ((y :: zs).map f) = 0 ∨ binVal ((y :: zs).map f) = 2 ^ (y :: zs).length - 1) ↔ ∀ z ∈ zs, f z = f y := by
    rw [h0, h1]
    constructor
    · rintro (h | h) z hz
      · rw [h z (by simp [hz]), h y (by simp)]
      · rw [h z (by simp [hz]), h y (by simp)]
    · intro h
      have hy := hf y (by simp)
      have : f y = 0 ∨ f y = 1 := by omega
      refine this.imp (fun h2 z hz => ?_) fun h2 z hz => ?_
      all_goals
        rcases List.mem_cons.1 hz with rfl | hz
        · exact h2
        · rw [h z hz, h2]
  simp only [key]

theorem groupItems_perm {α : Type} (p : α → Bool) (l : List α) : (groupItems p l).Perm l := by
  cases l with
  | nil => exact List.Perm.refl _
  | cons e l =>
    simp only [groupItems]
    split
    · exact List.filter_append_perm p _
    · exact List.perm_append_comm.trans (List.filter_append_perm p _)

/-- The representatives after line 473. -/
def openRep (hmap : List (ι × ι)) (op : List ι) (r : ι) : ι := (dget (remapOpen hmap op).2 r).getD r

section
variable {A op : List ι} {hmap : List (ι × ι)} {ρ : ι → ι} (hk : (hmap.map Prod.fst).Nodup) (hm : ∀ x ∈ A, dget hmap x = some (ρ x))
  (hd : ∀ x r, dget hmap x = some r → x ∈ A) (ho : ∀ x ∈ op, x ∈ A)
include hk hm hd ho

theorem openRep_spec (r : ι) : (openRep hmap op r = r ∧ (r ∈ op ∨ ∀ x ∈ op, ρ x ≠ r)) ∨
    (openRep hmap op r ∈ op ∧ ρ (openRep hmap op r) = r ∧ r ∉ op) := by
  unfold openRep
  cases h : dget (remapOpen hmap op).2 r with
  | none =>
    left
    refine ⟨rfl, ?_⟩
    by_contra hno
    rw [not_or] at hno
    obtain ⟨h1, h2⟩ := hno
    simp only [not_forall, ne_eq, not_not] at h2
    obtain ⟨x, hx, rfl⟩ := h2
    unfold remapOpen at h
    simp only at h
    rw [dget_dupdate, show dget ([] : List (ι × ι)) (ρ x) = none from rfl, Option.or_none, dget_none] at h
    apply h
    rw [List.map_reverse, List.mem_reverse, List.map_map]
    refine List.mem_map.2 ⟨(x, ρ x), List.mem_filter.2 ⟨dget_mem (hm x (ho x hx)), ?_⟩, rfl⟩
    simp [hx, h1]
  | some k =>
    right
    have := dget_dupdate_nil_mem h
    obtain ⟨⟨x, y⟩, h1, h2⟩ := List.mem_map.1 this
    simp only [Prod.mk.injEq] at h2
    obtain ⟨rfl, rfl⟩ := h2
    obtain ⟨h1, h3⟩ := List.mem_filter.1 h1
    simp only [decide_eq_true_eq] at h3
    have h4 := dget_of_mem hk h1
    rw [hm _ (hd _ _ h4)] at h4
    exact ⟨h3.1, Option.some.inj h4, h3.2⟩

variable (hA : ∀ x ∈ A, ρ x ∈ A) (hid : ∀ x ∈ A, ρ (ρ x) = ρ x)
include hA hid

theorem rho_openRep {x : ι} (hx : x ∈ A) : ρ (openRep hmap op (ρ x)) = ρ x := by
  rcases openRep_spec hk hm hd ho (ρ x) with ⟨h1, -⟩ | ⟨-, h2, -⟩
  · rw [h1, hid x hx]
  · exact h2

theorem openRep_mem {x : ι} (hx : x ∈ A) : openRep hmap op (ρ x) ∈ A := by
  rcases openRep_spec hk hm hd ho (ρ x) with ⟨h1, -⟩ | ⟨h1, -, -⟩
  · rw [h1]; exact hA x hx
  · exact ho _ h1

/-- A class with an open index is represented by an open index. -/
theorem openRep_open {x : ι} (hx : x ∈ A) : openRep hmap op (ρ x) ∈ op ↔ ∃ o ∈ op, ρ o = ρ x := by
  refine ⟨fun h => ⟨_, h, rho_openRep hk hm hd ho hA hid hx⟩, ?_⟩
  rintro ⟨o, ho1, ho2⟩
  rcases openRep_spec hk hm hd ho (ρ x) with ⟨h1, h2⟩ | ⟨h1, -, -⟩
  · rw [h1]
    exact h2.resolve_right fun h2 => h2 o ho1 ho2
  · exact h1

theorem mem_remap {x y : ι} : (x, y) ∈ (remapOpen hmap op).1 ↔ x ∈ A ∧ y = openRep hmap op (ρ x) := by
  unfold remapOpen
  simp only
  rw [List.mem_map]
  constructor
  · rintro ⟨e, he, h2⟩
    have he := (groupItems_perm _ _).mem_iff.1 he
    simp only [Prod.mk.injEq] at h2
    obtain ⟨rfl, rfl⟩ := h2
    have h4 := dget_of_mem hk (show (e.1, e.2) ∈ hmap from he)
    have h5 := hd _ _ h4
    rw [hm _ h5] at h4
    refine ⟨h5, ?_⟩
    rw [← Option.some.inj h4]
    rfl
  · rintro ⟨h1, rfl⟩
    exact ⟨(x, ρ x), (groupItems_perm _ _).mem_iff.2 (dget_mem (hm x h1)), rfl⟩

/-- The indices of the Kronecker deltas. -/
theorem mem_deltaInds {xs : List ι} : xs ∈ deltaInds (remapOpen hmap op).1 op ↔
    ∃ y zs, xs = y :: zs ∧ y ∈ op ∧ zs ≠ [] ∧ (∀ z, z ∈ zs ↔ z ∈ op ∧ openRep hmap op (ρ z) = y ∧ z ≠ y) ∧
      zs = ((((remapOpen hmap op).1.filter fun e => decide (e.1 ∈ op ∧ e.2 ∈ op ∧ e.1 ≠ e.2)).filter fun e => e.2 = y).map Prod.fst) := by
  have memf : ∀ y, y ∈ op → ∀ z, z ∈ ((((remapOpen hmap op).1.filter fun e => decide (e.1 ∈ op ∧ e.2 ∈ op ∧ e.1 ≠ e.2)).filter fun e => e.2 = y).map Prod.fst) ↔
      z ∈ op ∧ openRep hmap op (ρ z) = y ∧ z ≠ y := by
    intro y hy z
    simp only [List.mem_map, List.mem_filter, decide_eq_true_eq]
    constructor
    · rintro ⟨⟨a, b⟩, ⟨⟨h1, h2, h3, h4⟩, h5⟩, rfl⟩
      obtain ⟨-, h6⟩ := (mem_remap hk hm hd ho hA hid).1 h1
      simp only at h5 h6
      exact ⟨h2, h6.symm.trans h5, h5 ▸ h4⟩
    · rintro ⟨h1, h2, h3⟩
      exact ⟨(z, y), ⟨⟨(mem_remap hk hm hd ho hA hid).2 ⟨ho z h1, h2.symm⟩, h1, hy, h3⟩, rfl⟩, rfl⟩
  unfold deltaInds
  simp only
  rw [List.mem_map]
  constructor
  · rintro ⟨y, hy, rfl⟩
    rw [mem_uniqueEverseen] at hy
    obtain ⟨⟨a, b⟩, h1, rfl⟩ := List.mem_map.1 hy
    have h2 := (List.mem_filter.1 h1).2
    simp only [decide_eq_true_eq] at h2
    refine ⟨b, _, rfl, h2.2.1, ?_, memf b h2.2.1, rfl⟩
    refine List.ne_nil_of_mem (a := a) (List.mem_map.2 ⟨(a, b), List.mem_filter.2 ⟨h1, by simp⟩, rfl⟩)
  · rintro ⟨y, zs, rfl, hy, hne, -, hzs⟩
    refine ⟨y, ?_, by rw [hzs]⟩
    rw [mem_uniqueEverseen]
    obtain ⟨z, hz⟩ := List.exists_mem_of_ne_nil zs hne
    rw [hzs] at hz
    obtain ⟨e, he, -⟩ := List.mem_map.1 hz
    obtain ⟨he1, he2⟩ := List.mem_filter.1 he
    exact List.mem_map.2 ⟨e, he1, by simpa using he2⟩

theorem deltaInds_nodup {xs : List ι} (h : xs ∈ deltaInds (remapOpen hmap op).1 op) : xs.Nodup := by
  obtain ⟨y, zs, rfl, -, -, h1, h2⟩ := (mem_deltaInds hk hm hd ho hA hid).1 h
  rw [List.nodup_cons]
  refine ⟨fun h => ((h1 y).1 h).2.2 rfl, ?_⟩
  rw [h2]
  have hn : ((remapOpen hmap op).1.map Prod.fst).Nodup := by
    unfold remapOpen
    simp only
    rw [List.map_map]
    exact ((groupItems_perm _ _).map _).nodup_iff.2 hk
  exact hn.sublist ((List.filter_sublist.trans List.filter_sublist).map _)

/-- The product of the Kronecker deltas. -/
theorem deltas_prod {f : ι → ℕ} (hf : ∀ x ∈ op, f x < 2) :
    (((deltaInds (remapOpen hmap op).1 op).map fun xs => (deltaArray (K := K) xs.length).get (xs.map f)).prod) =
      if ∀ z ∈ op, f z = f (openRep hmap op (ρ z)) then 1 else 0 := by
  have hval : ∀ xs ∈ deltaInds (remapOpen hmap op).1 op, ∀ y zs, xs = y :: zs →
      (deltaArray (K := K) xs.length).get (xs.map f) = if ∀ z ∈ zs, f z = f y then 1 else 0 := by
    rintro xs hxs y zs rfl
    obtain ⟨y', zs', he, hy, -, h1, -⟩ := (mem_deltaInds hk hm hd ho hA hid).1 hxs
    simp only [List.cons.injEq] at he
    obtain ⟨rfl, rfl⟩ := he
    refine delta_get fun z hz => ?_
    rcases List.mem_cons.1 hz with rfl | hz
    · exact hf _ hy
    · exact hf z ((h1 z).1 hz).1
  split
  · rename_i hc
    refine List.prod_eq_one fun a ha => ?_
    obtain ⟨xs, hxs, rfl⟩ := List.mem_map.1 ha
    obtain ⟨y, zs, rfl, hy, -, h1, -⟩ := (mem_deltaInds hk hm hd ho hA hid).1 hxs
    rw [hval _ hxs y zs rfl, if_pos]
    intro z hz
    obtain ⟨h2, h3, -⟩ := (h1 z).1 hz
    rw [hc z h2, h3]
  · rename_i hc
    simp only [not_forall] at hc
    obtain ⟨z, hz, hne⟩ := hc
    have hy : openRep hmap op (ρ z) ∈ op := (openRep_open hk hm hd ho hA hid (ho z hz)).2 ⟨z, hz, rfl⟩
    have hzy : z ≠ openRep hmap op (ρ z) := fun h => hne (by rw [← h])
    set zs := ((((remapOpen hmap op).1.filter fun e => decide (e.1 ∈ op ∧ e.2 ∈ op ∧ e.1 ≠ e.2)).filter fun e => e.2 = openRep hmap op (ρ z)).map Prod.fst) with hzs
    have memz : ∀ w, w ∈ zs ↔ w ∈ op ∧ openRep hmap op (ρ w) = openRep hmap op (ρ z) ∧ w ≠ openRep hmap op (ρ z) := by
      intro w
      rw [hzs]
      simp only [List.mem_map, List.mem_filter, decide_eq_true_eq]
      constructor
      · rintro ⟨⟨a, b⟩, ⟨⟨h1, h2, h3, h4⟩, h5⟩, rfl⟩
        obtain ⟨-, h6⟩ := (mem_remap hk hm hd ho hA hid).1 h1
        simp only at h5 h6
        exact ⟨h2, h6.symm.trans h5, h5 ▸ h4⟩
      · rintro ⟨h1, h2, h3⟩
        exact ⟨(w, openRep hmap op (ρ z)), ⟨⟨(mem_remap hk hm hd ho hA hid).2 ⟨ho w h1, h2.symm⟩, h1, hy, h3⟩, rfl⟩, rfl⟩
    have hzz : z ∈ zs := (memz z).2 ⟨hz, rfl, hzy⟩
    have hxs : openRep hmap op (ρ z) :: zs ∈ deltaInds (remapOpen hmap op).1 op :=
      (mem_deltaInds hk hm hd ho hA hid).2 ⟨_, zs, rfl, hy, List.ne_nil_of_mem hzz, memz, hzs⟩
    refine List.prod_eq_zero (List.mem_map.2 ⟨_, hxs, ?_⟩)
    rw [hval _ hxs _ zs rfl, if_neg fun h => hne (h z hzz)]

end

theorem zip_fst_snd {α β : Type} (l : List (α × β)) : (l.map Prod.fst).zip (l.map Prod.snd) = l := by
  induction l with
  | nil => rfl
  | cons a l ih => simp [ih]

variable [DecidableEq K]

/-- An index of two tensors. -/
theorem count_flatten_two {ι : Type} [DecidableEq ι] {L : List (List ι)} {i j : ℕ} (hij : i ≠ j) {xs ys : List ι} {z : ι} (hi : L[i]? = some xs)
    (hj : L[j]? = some ys) (hx : z ∈ xs) (hy : z ∈ ys) : 2 ≤ L.flatten.count z := by
  induction L generalizing i j with
  | nil => simp at hi
  | cons a L ih =>
    rw [List.flatten_cons, List.count_append]
    cases i with
    | zero =>
      cases j with
      | zero => exact absurd rfl hij
      | succ j =>
        rw [List.getElem?_cons_zero, Option.some.injEq] at hi
        rw [List.getElem?_cons_succ] at hj
        have h1 : 0 < a.count z := List.count_pos_iff.2 (hi ▸ hx)
        have h2 : 0 < L.flatten.count z := List.count_pos_iff.2 (List.mem_flatten.2 ⟨ys, List.mem_of_getElem? hj, hy⟩)
        omega
    | succ i =>
      rw [List.getElem?_cons_succ] at hi
      cases j with
      | zero =>
        rw [List.getElem?_cons_zero, Option.some.injEq] at hj
        have h1 : 0 < a.count z := List.count_pos_iff.2 (hj ▸ hy)
        have h2 : 0 < L.flatten.count z := List.count_pos_iff.2 (List.mem_flatten.2 ⟨xs, List.mem_of_getElem? hi, hx⟩)
        omega
      | succ j =>
        rw [List.getElem?_cons_succ] at hj
        have := ih (by omega) hi hj
        omega

/-- The network after the decomposition has the same entries, if every class survives. -/
theorem decomposeOpen_value {fuel : ℕ} {ts F : List (NDArray K × List ι)} {op : List ι} (hs : ∀ t ∈ ts, t.1.shape = t.2.map fun _ => 2)
    (hn : ∀ t ∈ ts, t.2.Nodup) (ho : ∀ x ∈ op, x ∈ (ts.map Prod.snd).flatten) (h : decomposeOpen fuel ts op = some (.ok F))
    (hW : ∀ (ρ : ι → ι) (rs : List ((NDArray K × List ι) × List (ι × Finset ι))),
      List.Forall₂ (fun t b => Decomposed (fun _ => 2) t.1 t.2 [] b.1.1 b.1.2 b.2) ts rs →
      (∀ f : ι → ℕ, (∀ r ∈ rs, Merged r.2 f) ↔ ∀ x ∈ (ts.map Prod.snd).flatten, f x = f (ρ x)) →
      (∀ x ∈ (ts.map Prod.snd).flatten, ρ (ρ x) = ρ x) →
      (∀ x ∈ (ts.map Prod.snd).flatten, (∃ r ∈ rs, ∃ y ∈ r.1.2, ρ y = ρ x) ∨ ∃ a ∈ op, ∃ b ∈ op, a ≠ b ∧ ρ a = ρ x ∧ ρ b = ρ x) ∧
      (∀ r ∈ rs, ∀ x ∈ r.1.2, ∀ y ∈ r.1.2, ρ x = ρ y → x = y) ∧
      ∀ x ∈ (ts.map Prod.snd).flatten, (∃ a ∈ op, ρ a = ρ x) ∨ ∃ i j, i ≠ j ∧ ∃ (hi : i < rs.length) (hj : j < rs.length),
        (∃ y ∈ rs[i].1.2, ρ y = ρ x) ∧ ∃ y ∈ rs[j].1.2, ρ y = ρ x) :
    (∀ t ∈ F, t.1.shape = t.2.map fun _ => 2) ∧ (∀ t ∈ F, t.2.Nodup) ∧ (∀ x ∈ op, x ∈ (F.map Prod.snd).flatten) ∧
      (∀ x ∈ (F.map Prod.snd).flatten, x ∈ (ts.map Prod.snd).flatten) ∧
      (∀ x ∈ (F.map Prod.snd).flatten, x ∉ op → 2 ≤ (F.map Prod.snd).flatten.count x) ∧
      ∀ (l l' : List ι), l.Nodup → l'.Nodup → (∀ x, x ∈ l ↔ x ∈ (ts.map Prod.snd).flatten ∧ x ∉ op) →
        (∀ x, x ∈ l' ↔ x ∈ (F.map Prod.snd).flatten ∧ x ∉ op) → ∀ f : ι → ℕ, (∀ x ∈ op, f x < 2) →
        sumOver (fun _ => 2) l (fun k => (ts.map fun t => t.1.get (t.2.map k)).prod) f =
          sumOver (fun _ => 2) l' (fun k => (F.map fun t => t.1.get (t.2.map k)).prod) f := by
  unfold decomposeOpen at h
  cases hdn : decomposeNetwork fuel (ts.map Prod.fst) (ts.map Prod.snd) with
  | none => rw [hdn] at h; simp at h
  | some o =>
    cases o with
    | error e => rw [hdn] at h; simp at h
    | ok res =>
      obtain ⟨arrs, new, hmap⟩ := res
      rw [hdn] at h
      simp only [Option.some.injEq, Except.ok.injEq] at h
      have hcons : Consistent (fun _ => 2) (ts.map Prod.fst) (ts.map Prod.snd) := by
        refine ⟨by simp, fun t ht => ?_⟩
        rw [zip_fst_snd] at ht
        exact hs t ht
      obtain ⟨ρ, rs, N, hrs, harr, hnew, hk, hiff⟩ := decomposeNetwork_detail hcons
        (fun xs hxs => by obtain ⟨t, ht, rfl⟩ := List.mem_map.1 hxs; exact hn t ht) hdn
      rw [zip_fst_snd] at hrs
      have hrs' := hrs.imp fun _ _ h => h.1
      obtain ⟨hV, hI, hT⟩ := hW ρ rs hrs' hiff N.idem
      set A := (ts.map Prod.snd).flatten with hA
      have hm := N.map
      have hd := N.dom
      have hAm := N.mem
      have hid := N.idem
      set rep := openRep hmap op with hrep
      have rr := fun {x} (hx : x ∈ A) => rho_openRep hk hm hd ho hAm hid hx
      have rm := fun {x} (hx : x ∈ A) => openRep_mem hk hm hd ho hAm hid hx
      have ropen := fun {x} (hx : x ∈ A) => openRep_open hk hm hd ho hAm hid hx
      have md := fun {xs} => mem_deltaInds hk hm hd ho hAm hid (xs := xs)
      have rsA : ∀ r ∈ rs, ∀ y ∈ r.1.2, y ∈ A := by
        intro r hr y hy
        obtain ⟨t, ht, D⟩ := forall2_right hrs' hr
        exact List.mem_flatten.2 ⟨t.2, List.mem_map.2 ⟨t, ht, rfl⟩, D.sub y hy⟩
      set new' := new.map fun xs => xs.map rep with hnew'
      have hnew2 : new' = rs.map fun r => r.1.2.map fun x => rep (ρ x) := by
        rw [hnew', hnew, List.map_map]
        refine List.map_congr_left fun r _ => ?_
        simp only [Function.comp_def, List.map_map]
      have hzip : arrs.zip new' = rs.map fun r => (r.1.1, r.1.2.map fun x => rep (ρ x)) := by
        rw [harr, hnew2, List.zip_map']
      have memnew : ∀ y, y ∈ new'.flatten ↔ ∃ r ∈ rs, ∃ x ∈ r.1.2, rep (ρ x) = y := by
        intro y
        rw [hnew2, List.mem_flatten]
        constructor
        · rintro ⟨xs, hxs, hy⟩
          obtain ⟨r, hr, rfl⟩ := List.mem_map.1 hxs
          obtain ⟨x, hx, rfl⟩ := List.mem_map.1 hy
          exact ⟨r, hr, x, hx, rfl⟩
        · rintro ⟨r, hr, x, hx, rfl⟩
          exact ⟨_, List.mem_map.2 ⟨r, hr, rfl⟩, List.mem_map.2 ⟨x, hx, rfl⟩⟩
      have hF : F = (rs.map fun r => (r.1.1, r.1.2.map fun x => rep (ρ x))) ++
          (deltaInds (remapOpen hmap op).1 op).map fun xs => (deltaArray xs.length, xs) := by
        rw [← h, ← hzip]
        rfl
      have memF : ∀ y, y ∈ (F.map Prod.snd).flatten ↔ y ∈ new'.flatten ∨ ∃ xs ∈ deltaInds (remapOpen hmap op).1 op, y ∈ xs := by
        intro y
        rw [hF, List.map_append, List.flatten_append, List.mem_append, hnew2]
        simp only [List.map_map, Function.comp_def, List.map_id']
        rw [List.mem_flatten (L := deltaInds _ _)]
      have deltaOp : ∀ xs ∈ deltaInds (remapOpen hmap op).1 op, ∀ y ∈ xs, y ∈ op := by
        intro xs hxs y hy
        obtain ⟨y', zs, rfl, h1, -, h2, -⟩ := md.1 hxs
        rcases List.mem_cons.1 hy with rfl | hy
        · exact h1
        · exact ((h2 y).1 hy).1
      have inDelta : ∀ x ∈ op, (∃ z ∈ op, z ≠ rep (ρ x) ∧ ρ z = ρ x) → ∃ xs ∈ deltaInds (remapOpen hmap op).1 op, x ∈ xs := by
        rintro x hx ⟨z, hz, hzne, hzx⟩
        have hy : rep (ρ x) ∈ op := (ropen (ho x hx)).2 ⟨x, hx, rfl⟩
        set zs := ((((remapOpen hmap op).1.filter fun e => decide (e.1 ∈ op ∧ e.2 ∈ op ∧ e.1 ≠ e.2)).filter fun e => e.2 = rep (ρ x)).map Prod.fst) with hzs
        have memz : ∀ w, w ∈ zs ↔ w ∈ op ∧ openRep hmap op (ρ w) = rep (ρ x) ∧ w ≠ rep (ρ x) := by
          intro w
          rw [hzs]
          simp only [List.mem_map, List.mem_filter, decide_eq_true_eq]
          constructor
          · rintro ⟨⟨a, b⟩, ⟨⟨h1, h2, h3, h4⟩, h5⟩, rfl⟩
            obtain ⟨-, h6⟩ := (mem_remap hk hm hd ho hAm hid).1 h1
            simp only at h5 h6
            exact ⟨h2, h6.symm.trans h5, h5 ▸ h4⟩
          · rintro ⟨h1, h2, h3⟩
            exact ⟨(w, rep (ρ x)), ⟨⟨(mem_remap hk hm hd ho hAm hid).2 ⟨ho w h1, h2.symm⟩, h1, hy, h3⟩, rfl⟩, rfl⟩
        have hzz : z ∈ zs := (memz z).2 ⟨hz, by rw [hzx], hzne⟩
        refine ⟨rep (ρ x) :: zs, md.2 ⟨_, zs, rfl, hy, List.ne_nil_of_mem hzz, memz, hzs⟩, ?_⟩
        by_cases hxr : x = rep (ρ x)
        · rw [List.mem_cons]; exact Or.inl hxr
        · rw [List.mem_cons]; exact Or.inr ((memz x).2 ⟨hx, rfl, hxr⟩)
      have C : ClassMap (fun _ => 2) (ts.map Prod.fst) (ts.map Prod.snd) arrs new' fun x => rep (ρ x) := by
        have conv : ∀ f : ι → ℕ, (∀ x ∈ A, f x = f (rep (ρ x))) ↔ ∀ x ∈ A, f x = f (ρ x) := by
          intro f
          constructor
          · intro hh x hx
            rw [hh x hx, hh (ρ x) (hAm x hx), hid x hx]
          · intro hh x hx
            rw [hh x hx, hh _ (rm hx), rr hx]
        refine ⟨fun x hx => rm hx, fun x hx => ?_, fun _ _ => rfl, fun y hy => ?_, fun f h1 h2 => ?_, fun f h1 h2 => N.zero f h1 fun hh => h2 ((conv f).2 hh)⟩
        · simp only [hrep]; rw [rr hx]
        · obtain ⟨r, hr, x, hx, rfl⟩ := (memnew y).1 hy
          exact ⟨x, rsA r hr x hx, rfl⟩
        · rw [N.keep f h1 ((conv f).1 h2), hzip, harr, hnew, List.zip_map', List.map_map, List.map_map]
          congr 1
          refine List.map_congr_left fun r hr => ?_
          simp only [Function.comp_def, List.map_map]
          congr 1
          refine List.map_congr_left fun x hx => ?_
          have hxA := rsA r hr x hx
          rw [← (conv f).1 h2 x hxA, ← h2 x hxA]
      refine ⟨?_, ?_, ?_, ?_, ?_, ?_⟩
      · intro t ht
        rw [hF] at ht
        rcases List.mem_append.1 ht with ht | ht
        · obtain ⟨r, hr, rfl⟩ := List.mem_map.1 ht
          obtain ⟨t, ht, D⟩ := forall2_right hrs' hr
          rw [D.shape]
          simp [Function.comp_def]
        · obtain ⟨xs, hxs, rfl⟩ := List.mem_map.1 ht
          unfold deltaArray
          simp
      · intro t ht
        rw [hF] at ht
        rcases List.mem_append.1 ht with ht | ht
        · obtain ⟨r, hr, rfl⟩ := List.mem_map.1 ht
          obtain ⟨t, ht, D⟩ := forall2_right hrs' hr
          refine List.Nodup.map_on (fun x hx y hy hxy => ?_) D.nodup
          refine hI r hr x hx y hy ?_
          rw [← rr (rsA r hr x hx), ← rr (rsA r hr y hy)]
          exact congrArg ρ hxy
        · obtain ⟨xs, hxs, rfl⟩ := List.mem_map.1 ht
          exact deltaInds_nodup hk hm hd ho hAm hid hxs
      · intro x hx
        rw [memF]
        by_cases hz : ∃ z ∈ op, z ≠ rep (ρ x) ∧ ρ z = ρ x
        · exact Or.inr (inDelta x hx hz)
        · left
          have hself : x = rep (ρ x) := by
            by_contra hne
            exact hz ⟨x, hx, hne, rfl⟩
          rcases hV x (ho x hx) with ⟨r, hr, y, hy, hyx⟩ | ⟨a, ha, b, hb, hab, ha2, hb2⟩
          · rw [memnew]
            exact ⟨r, hr, y, hy, by rw [hyx]; exact hself.symm⟩
          · exfalso
            by_cases haa : a = rep (ρ x)
            · exact hz ⟨b, hb, fun hbb => hab (haa.trans hbb.symm), hb2⟩
            · exact hz ⟨a, ha, haa, ha2⟩
      · intro x hx
        rcases (memF x).1 hx with hx | ⟨xs, hxs, hx⟩
        · obtain ⟨r, hr, y, hy, rfl⟩ := (memnew x).1 hx
          exact rm (rsA r hr y hy)
        · exact ho x (deltaOp xs hxs x hx)
      · intro x hx hxo
        rcases (memF x).1 hx with hx | ⟨xs, hxs, hx⟩
        · obtain ⟨r, hr, y, hy, rfl⟩ := (memnew x).1 hx
          rcases hT y (rsA r hr y hy) with ⟨a, ha, hay⟩ | ⟨i, j, hij, hi, hj, ⟨y1, h1, e1⟩, y2, h2, e2⟩
          · exact absurd ((ropen (rsA r hr y hy)).2 ⟨a, ha, hay⟩) hxo
          · have hc : 2 ≤ new'.flatten.count (rep (ρ y)) := by
              rw [hnew2]
              refine count_flatten_two hij (xs := rs[i].1.2.map fun x => rep (ρ x)) (ys := rs[j].1.2.map fun x => rep (ρ x)) ?_ ?_ ?_ ?_
              · rw [List.getElem?_map, List.getElem?_eq_getElem hi]; rfl
              · rw [List.getElem?_map, List.getElem?_eq_getElem hj]; rfl
              · exact List.mem_map.2 ⟨y1, h1, by rw [e1]⟩
              · exact List.mem_map.2 ⟨y2, h2, by rw [e2]⟩
            refine hc.trans ?_
            rw [hF, hnew2, List.map_append, List.flatten_append, List.count_append]
            simp only [List.map_map, Function.comp_def]
            omega
        · exact absurd (deltaOp xs hxs x hx) hxo
      · intro l l' nl nl' hl hl' f hf
        have himg : ∀ x ∈ A, (rep (ρ x) ∈ op.toFinset.image fun x => rep (ρ x)) ↔ rep (ρ x) ∈ op := by
          intro x hx
          constructor
          · intro hh
            obtain ⟨o, ho1, ho2⟩ := Finset.mem_image.1 hh
            rw [List.mem_toFinset] at ho1
            rw [← ho2]
            exact (ropen (ho o ho1)).2 ⟨o, ho1, rfl⟩
          · intro hh
            refine Finset.mem_image.2 ⟨rep (ρ x), List.mem_toFinset.2 hh, ?_⟩
            simp only [hrep]
            rw [rr hx]
        have hval := C.value (out := op.toFinset) (fun x hx => ho x (List.mem_toFinset.1 hx)) (l := l) (l' := l') (van := []) nl nl' List.nodup_nil
          (fun x => by rw [hl, List.mem_toFinset])
          (fun y => by
            rw [hl', memF]
            constructor
            · rintro ⟨h1 | ⟨xs, hxs, h1⟩, h2⟩
              · refine ⟨h1, ?_⟩
                obtain ⟨r, hr, x, hx, rfl⟩ := (memnew y).1 h1
                exact fun h3 => h2 ((himg x (rsA r hr x hx)).1 h3)
              · exact absurd (deltaOp xs hxs y h1) h2
            · rintro ⟨h1, h2⟩
              refine ⟨Or.inl h1, ?_⟩
              obtain ⟨r, hr, x, hx, rfl⟩ := (memnew y).1 h1
              exact fun h3 => h2 ((himg x (rsA r hr x hx)).2 h3))
          (fun y => by
            refine ⟨fun h => by simp at h, ?_⟩
            rintro ⟨⟨x, hx, rfl⟩, h2, h3⟩
            exfalso
            rcases hV x hx with ⟨r, hr, y, hy, hyx⟩ | ⟨a, ha, b, hb, hab, ha2, hb2⟩
            · exact h2 ((memnew _).2 ⟨r, hr, y, hy, by rw [hyx]⟩)
            · exact h3 (Finset.mem_image.2 ⟨a, List.mem_toFinset.2 ha, by simp only [ha2]⟩))
          (f := f) (fun x hx => hf x (List.mem_toFinset.1 hx))
        have e1 : sumOver (fun _ => 2) l (fun k => (ts.map fun t => t.1.get (t.2.map k)).prod) f =
            einsum (fun _ => 2) l (((ts.map Prod.fst).zip (ts.map Prod.snd)).map fun t g => t.1.get (t.2.map g)) f := by
          unfold einsum
          rw [zip_fst_snd]
          simp only [List.map_map, Function.comp_def]
        rw [e1]
        have hprod : ∀ k : ι → ℕ, (F.map fun t => t.1.get (t.2.map k)).prod = ((arrs.zip new').map fun t => t.1.get (t.2.map k)).prod *
            ((deltaInds (remapOpen hmap op).1 op).map fun xs => (deltaArray (K := K) xs.length).get (xs.map k)).prod := by
          intro k
          rw [hF, hzip, List.map_append, List.prod_append, List.map_map, List.map_map]
          rfl
        have hdel : ∀ k : ι → ℕ, (∀ x, x ∉ l' → k x = f x) →
            ((deltaInds (remapOpen hmap op).1 op).map fun xs => (deltaArray (K := K) xs.length).get (xs.map k)).prod =
              if ∀ z ∈ op, f z = f (rep (ρ z)) then 1 else 0 := by
          intro k hk'
          have hko : ∀ x ∈ op, k x = f x := fun x hx => hk' x fun hxl => ((hl' x).1 hxl).2 hx
          rw [deltas_prod hk hm hd ho hAm hid fun x hx => by rw [hko x hx]; exact hf x hx]
          have : (∀ z ∈ op, k z = k (openRep hmap op (ρ z))) ↔ ∀ z ∈ op, f z = f (rep (ρ z)) := by
            refine forall_congr' fun z => forall_congr' fun hz => ?_
            rw [hko z hz, hko _ ((ropen (ho z hz)).2 ⟨z, hz, rfl⟩)]
          simp only [this]
        by_cases hcs : ∀ z ∈ op, f z = f (rep (ρ z))
        · rw [hval.1 f fun x hx => (hcs x (List.mem_toFinset.1 hx)).symm]
          simp only [List.map_nil, List.prod_nil, Nat.cast_one, one_mul]
          unfold einsum
          refine sumOver_congr fun k hk1 _ => ?_
          rw [hprod, hdel k hk1, if_pos hcs, mul_one]
          simp only [List.map_map, Function.comp_def]
        · simp only [not_forall] at hcs
          obtain ⟨z, hz, hne⟩ := hcs
          have hro := (ropen (ho z hz)).2 ⟨z, hz, rfl⟩
          rw [hval.2 ⟨z, List.mem_toFinset.2 hz, rep (ρ z), List.mem_toFinset.2 hro, ?_, hne⟩]
          · refine (sumOver_zero fun k hk1 _ => ?_).symm
            rw [hprod, hdel k hk1, if_neg fun hh => hne (hh z hz), mul_zero]
          · simp only [hrep]
            rw [rr (ho z hz)]

end TNCO
