import Verif.Lemmas.ClassValue
import Verif.Props.Names

/-!
# C33: decomposing hyper-indices
-/

namespace TNCO
variable {ι R : Type} [DecidableEq ι] [CommRing R] [DecidableEq R]

/-- C33 for one tensor: the tensor is the reduced one where the merged indices have equal values, and zero elsewhere. -/
theorem C33_tensor (d : ι → ℕ) (fuel : ℕ) (a : NDArray R) (inds : List ι) (hs : a.shape = inds.map d) (hn : inds.Nodup)
    (a' : NDArray R) (inds' : List ι) (H : List (ι × Finset ι)) (h : decomposeTensor fuel a inds [] = some (.ok ((a', inds'), H))) :
    a'.shape = inds'.map d ∧ inds'.Nodup ∧ (∀ x ∈ inds', x ∈ inds) ∧ (∀ e ∈ H, e.1 ∈ inds ∧ ∀ y ∈ e.2, y ∈ inds ∧ d y = d e.1) ∧
      ∀ f : ι → ℕ, (∀ x ∈ inds, f x < d x) →
        a.get (inds.map f) = if ∀ e ∈ H, ∀ y ∈ e.2, f y = f e.1 then a'.get (inds'.map f) else 0 := by
  have hd := decomposeTensor_spec fuel hs hn h
  have hk := hd.keys (by simp)
  have hnil : ∀ x xs, dget ([] : List (ι × Finset ι)) x ≠ some xs := fun x xs h => by cases h
  have hm0 : ∀ f : ι → ℕ, Merged ([] : List (ι × Finset ι)) f := fun f x xs hx => absurd hx (hnil x xs)
  have hM : ∀ f, Merged H f ↔ ∀ e ∈ H, ∀ y ∈ e.2, f y = f e.1 := fun f =>
    ⟨fun h e he y hy => h e.1 e.2 (dget_of_mem hk he) y hy, fun h x xs hx y hy => h (x, xs) (dget_mem hx) y hy⟩
  refine ⟨hd.shape, hd.nodup, hd.sub, ?_, ?_⟩
  · intro e he
    have hg := dget_of_mem hk (k := e.1) (v := e.2) he
    refine ⟨?_, fun y hy => ⟨?_, ?_⟩⟩
    · rcases hd.inds_of _ _ hg with ⟨y, ys, h1, -⟩ | h1
      · exact absurd h1 (hnil y ys)
      · exact h1
    · rcases hd.inds_of' _ _ hg y hy with ⟨y, ys, h1, -⟩ | h1
      · exact absurd h1 (hnil y ys)
      · exact h1
    · exact (hM d).1 (hd.dims (hm0 d)) e he y hy
  · intro f hf
    obtain ⟨v1, v2⟩ := hd.value f hf (hm0 f)
    split
    · rename_i hh; exact v1 ((hM f).2 hh)
    · rename_i hh; exact v2 fun hm => hh ((hM f).1 hm)

/-- C33: without axes of length 0 the decomposition of a tensor succeeds. -/
theorem C33_tensor_ok (d : ι → ℕ) (a : NDArray R) (inds : List ι) (hs : a.shape = inds.map d) (hn : inds.Nodup) (h0 : ∀ x ∈ inds, d x ≠ 0) :
    ∃ r, decomposeTensor (inds.length + 1) a inds [] = some (.ok r) := decomposeTensor_ok _ hs hn h0 (by omega)

/-- C33: a wrong number of indices and repeated indices are rejected. -/
theorem C33_tensor_rejects (fuel : ℕ) (a : NDArray R) (inds : List ι) (H : List (ι × Finset ι)) (h : a.ndim ≠ inds.length ∨ ¬ inds.Nodup) :
    decomposeTensor (fuel + 1) a inds H = some (.error .valueError) := by
  unfold decomposeTensor
  by_cases h1 : a.ndim ≠ inds.length
  · rw [if_pos h1]
  · rw [if_neg h1, if_pos (h.resolve_left h1)]

/-- C33 for a network: the exact relation between the values of the two networks. `ρ x` is the index that replaces `x`; `l` are the summed
indices of the given network, `l'` those of the new one, and `van` are the new summed indices that no new tensor has. The value of
the given network is zero where output indices that were merged differ; elsewhere it is the value of the new network times the
dimensions of the vanished indices. -/
theorem C33_value (d : ι → ℕ) (fuel : ℕ) (arrays : List (NDArray R)) (tsInds : List (List ι)) (hc : Consistent d arrays tsInds)
    (hn : ∀ xs ∈ tsInds, xs.Nodup) (arrs : List (NDArray R)) (new : List (List ι)) (hmap : List (ι × ι))
    (h : decomposeNetwork fuel arrays tsInds = some (.ok (arrs, new, hmap))) :
    ∃ ρ : ι → ι, (∀ x ∈ tsInds.flatten, dget hmap x = some (ρ x) ∧ ρ x ∈ tsInds.flatten ∧ ρ (ρ x) = ρ x ∧ d (ρ x) = d x) ∧
      (∀ y ∈ new.flatten, ∃ x ∈ tsInds.flatten, ρ x = y) ∧ Consistent d arrs new ∧ arrs.length = arrays.length ∧
      ∀ (out : Finset ι), (∀ x ∈ out, x ∈ tsInds.flatten) → ∀ l l' van : List ι, l.Nodup → l'.Nodup → van.Nodup →
        (∀ x, x ∈ l ↔ x ∈ tsInds.flatten ∧ x ∉ out) → (∀ y, y ∈ l' ↔ y ∈ new.flatten ∧ y ∉ out.image ρ) →
        (∀ y, y ∈ van ↔ (∃ x ∈ tsInds.flatten, ρ x = y) ∧ y ∉ new.flatten ∧ y ∉ out.image ρ) →
        ∀ f : ι → ℕ, (∀ x ∈ out, f x < d x) →
          (∀ f' : ι → ℕ, (∀ x ∈ out, f' (ρ x) = f x) →
            einsum d l ((arrays.zip tsInds).map fun t g => t.1.get (t.2.map g)) f =
            ((van.map d).prod : ℕ) * einsum d l' ((arrs.zip new).map fun t g => t.1.get (t.2.map g)) f') ∧
          ((∃ x ∈ out, ∃ y ∈ out, ρ x = ρ y ∧ f x ≠ f y) →
            einsum d l ((arrays.zip tsInds).map fun t g => t.1.get (t.2.map g)) f = 0) := by
  obtain ⟨ρ, D⟩ := decomposeNetwork_spec hc hn h
  exact ⟨ρ, fun x hx => ⟨D.map x hx, D.mem x hx, D.idem x hx, D.dims x hx⟩, D.sub, D.consistent, D.length,
    fun out ho l l' van nl nl' nv hl hl' hvan f hf => D.classMap.value ho nl nl' nv hl hl' hvan hf⟩

/-- C33 as stated, where it holds: if no summed index vanishes, the new network has the same value. -/
theorem C33_value_partial (d : ι → ℕ) (fuel : ℕ) (arrays : List (NDArray R)) (tsInds : List (List ι)) (hc : Consistent d arrays tsInds)
    (hn : ∀ xs ∈ tsInds, xs.Nodup) (arrs : List (NDArray R)) (new : List (List ι)) (hmap : List (ι × ι))
    (h : decomposeNetwork fuel arrays tsInds = some (.ok (arrs, new, hmap))) (out : Finset ι) (ho : ∀ x ∈ out, x ∈ tsInds.flatten)
    (hv : ∀ x r, dget hmap x = some r → r ∈ new.flatten ∨ ∃ o ∈ out, dget hmap o = some r)
    (l l' : List ι) (nl : l.Nodup) (nl' : l'.Nodup) (hl : ∀ x, x ∈ l ↔ x ∈ tsInds.flatten ∧ x ∉ out)
    (hl' : ∀ y, y ∈ l' ↔ y ∈ new.flatten ∧ ¬ ∃ o ∈ out, dget hmap o = some y) (f f' : ι → ℕ) (hf : ∀ x ∈ out, f x < d x)
    (hf' : ∀ x ∈ out, ∀ r, dget hmap x = some r → f' r = f x) :
    einsum d l ((arrays.zip tsInds).map fun t g => t.1.get (t.2.map g)) f =
      einsum d l' ((arrs.zip new).map fun t g => t.1.get (t.2.map g)) f' := by
  obtain ⟨ρ, h1, -, -, -, h2⟩ := C33_value d fuel arrays tsInds hc hn arrs new hmap h
  have him : ∀ y, y ∈ out.image ρ ↔ ∃ o ∈ out, dget hmap o = some y := by
    intro y
    rw [Finset.mem_image]
    constructor
    · rintro ⟨o, ho', rfl⟩; exact ⟨o, ho', (h1 o (ho o ho')).1⟩
    · rintro ⟨o, ho', he⟩
      rw [(h1 o (ho o ho')).1] at he
      exact ⟨o, ho', Option.some.inj he⟩
  have := (h2 out ho l l' [] nl nl' List.nodup_nil hl (fun y => by rw [hl', him]) (fun y => by
    simp only [List.not_mem_nil, false_iff, not_and, not_not]
    rintro ⟨x, hx, rfl⟩ hy
    rcases hv x (ρ x) (h1 x hx).1 with h3 | h3
    · exact absurd h3 hy
    · exact (him _).2 h3) f hf).1 f' fun x hx => hf' x hx _ (h1 x (ho x hx)).1
  simpa using this

/-- C33: without axes of length 0 the decomposition of a network succeeds. -/
theorem C33_network_ok (d : ι → ℕ) (fuel : ℕ) (arrays : List (NDArray R)) (tsInds : List (List ι)) (hc : Consistent d arrays tsInds)
    (hn : ∀ xs ∈ tsInds, xs.Nodup) (h0 : ∀ x ∈ tsInds.flatten, d x ≠ 0) (hf : ∀ xs ∈ tsInds, xs.length < fuel) :
    ∃ r, decomposeNetwork fuel arrays tsInds = some (.ok r) := by
  have hz : ∀ t ∈ arrays.zip tsInds, ∃ r, decomposeTensor fuel t.1 t.2 [] = some (.ok r) := by
    intro t ht
    have h2 := (List.of_mem_zip ht).2
    exact decomposeTensor_ok fuel (hc.2 t ht) (hn _ h2) (fun x hx => h0 x (List.mem_flatten.2 ⟨_, h2, hx⟩)) (hf _ h2)
  have hrs : ∀ l : List (NDArray R × List ι), (∀ t ∈ l, ∃ r, decomposeTensor fuel t.1 t.2 [] = some (.ok r)) →
      ∃ rs, l.mapM (fun t => decomposeTensor fuel t.1 t.2 []) = some (rs.map .ok) ∧
        List.Forall₂ (fun t r => decomposeTensor fuel t.1 t.2 [] = some (.ok r)) l rs := by
    intro l
    induction l with
    | nil => intro _; exact ⟨[], rfl, .nil⟩
    | cons t l ih =>
      intro h
      obtain ⟨r, hr⟩ := h t (by simp)
      obtain ⟨rs, h1, h2⟩ := ih fun t ht => h t (by simp [ht])
      exact ⟨r :: rs, by rw [List.mapM_cons, hr, h1]; rfl, .cons hr h2⟩
  obtain ⟨rs, h1, h2⟩ := hrs _ hz
  have h3 : (rs.map Except.ok : List (Except PyErr _)).mapM id = .ok rs := by
    refine mapM_except_id_of ?_
    clear h1 h2
    induction rs with
    | nil => exact .nil
    | cons r rs ih => exact .cons rfl ih
  unfold decomposeNetwork
  rw [h1]
  simp only
  rw [h3]
  simp only
  have hr : ∀ r ∈ rs, ∃ t ∈ arrays.zip tsInds, Decomposed d t.1 t.2 [] r.1.1 r.1.2 r.2 := by
    intro r hr
    have := forall2_right (l := (arrays.zip tsInds)) (r := fun t r => t ∈ arrays.zip tsInds → Decomposed d t.1 t.2 [] r.1.1 r.1.2 r.2)
      (h2.imp fun t r h ht => by
        obtain ⟨⟨a', i'⟩, H'⟩ := r
        exact decomposeTensor_spec fuel (hc.2 t ht) (hn _ (List.of_mem_zip ht).2) h) hr
    obtain ⟨t, ht, h4⟩ := this
    exact ⟨t, ht, h4 ht⟩
  have hall : ∀ t ∈ arrays.zip tsInds, ∀ x ∈ t.2, x ∈ tsInds.flatten := fun t ht x hx => List.mem_flatten.2 ⟨_, (List.of_mem_zip ht).2, hx⟩
  have hin : ∀ e ∈ rs.flatMap fun r => r.2, e.1 ∈ uniqueEverseen tsInds.flatten ∧ ∀ y ∈ e.2, y ∈ uniqueEverseen tsInds.flatten := by
    intro e he
    obtain ⟨r, hrm, her⟩ := List.mem_flatMap.1 he
    obtain ⟨t, ht, hd⟩ := hr r hrm
    have hg := dget_of_mem (hd.keys (by simp)) (k := e.1) (v := e.2) her
    refine ⟨?_, fun y hy => ?_⟩
    · rcases hd.inds_of _ _ hg with ⟨y, ys, h1, -⟩ | h1
      · cases h1
      · exact mem_uniqueEverseen.2 (hall t ht _ h1)
    · rcases hd.inds_of' _ _ hg y hy with ⟨y, ys, h1, -⟩ | h1
      · cases h1
      · exact mem_uniqueEverseen.2 (hall t ht _ h1)
  obtain ⟨col, cls, hcl, hinv⟩ := colourLoop_spec (rs.flatMap fun r => r.2) (colInv_init (uniqueEverseen_nodup tsInds.flatten)) hin
  rw [show (OFS.make tsInds.flatten).iter = uniqueEverseen tsInds.flatten from rfl, hcl]
  simp only
  split
  · rename_i hnone
    exfalso
    have : (rs.mapM fun r : (NDArray R × List ι) × List (ι × Finset ι) => r.1.2.mapM (dget (dupdate [] (cls.flatMap fun e => e.2.flatMap fun x =>
        (e.2.head?.map fun r => (x, r)).toList)))).isSome := by
      rw [mapM_isSome_iff]
      intro r hrm
      rw [mapM_isSome_iff]
      intro x hx
      obtain ⟨t, ht, hd⟩ := hr r hrm
      obtain ⟨c, hc'⟩ := hinv.has x (mem_uniqueEverseen.2 (hall t ht x (hd.sub x hx)))
      obtain ⟨-, l, hl, hxl⟩ := hinv.cls_of x c hc'
      obtain ⟨-, -, ⟨r', t', rfl, -⟩, -⟩ := hinv.back c l hl
      rw [Option.isSome_iff_ne_none, ne_eq, dget_none]
      intro hno
      have hmem : (x, r') ∈ cls.flatMap fun e => e.2.flatMap fun x => (e.2.head?.map fun r => (x, r)).toList :=
        List.mem_flatMap.2 ⟨(c, r' :: t'), dget_mem hl, List.mem_flatMap.2 ⟨x, hxl, by simp⟩⟩
      rw [← dget_none, dget_dupdate, show dget ([] : List (ι × ι)) x = none from rfl, Option.or_none, dget_none] at hno
      exact hno (List.mem_map.2 ⟨_, List.mem_reverse.2 hmem, rfl⟩)
    rw [hnone] at this
    simp at this
  · exact ⟨_, rfl⟩

/-- The identity matrix with two rows. -/
def eye2 : NDArray ℤ := ⟨[2, 2], fun k => if k = 0 ∨ k = 3 then 1 else 0⟩

theorem exists_result {α β γ ε : Type} {r : Option (Except ε (α × β × γ))} {p : α → β → γ → Bool}
    (h : (match r with | some (.ok (a, b, c)) => p a b c | _ => false) = true) : ∃ a b c, r = some (.ok (a, b, c)) ∧ p a b c = true := by
  split at h
  · exact ⟨_, _, _, rfl, h⟩
  · cases h

/-- C33 is violated: `eye(i, j) * eye(i, j)` has the value 2, the network after the decomposition has the value 1. -/
theorem C33_violated : ∃ arrs new hmap, decomposeNetwork 3 [eye2, eye2] [[0, 1], [0, 1]] = some (.ok (arrs, new, hmap)) ∧
    new = [[], []] ∧
    einsum (fun _ => 2) [0, 1] (([eye2, eye2].zip [[0, 1], [0, 1]]).map fun t g => t.1.get (t.2.map g)) (fun _ => 0) = 2 ∧
    einsum (fun _ => 2) [] ((arrs.zip new).map fun t g => t.1.get (t.2.map g)) (fun _ => 0) = 1 := by
  obtain ⟨a, b, c, h1, h2⟩ := exists_result (r := decomposeNetwork 3 [eye2, eye2] [[0, 1], [0, 1]])
    (p := fun (arrs : List (NDArray ℤ)) (new : List (List ℕ)) _ => decide (new = [[], []] ∧
      einsum (fun _ => 2) [] ((arrs.zip new).map fun (t : NDArray ℤ × List ℕ) g => t.1.get (t.2.map g)) (fun _ => 0) = 1)) (by decide +kernel)
  rw [decide_eq_true_eq] at h2
  exact ⟨a, b, c, h1, h2.1, by decide +kernel, h2.2⟩

/-- C33: renaming can give a tensor the same index twice (here `A(0, 1) * eye(0, 1)`), although all tensors had distinct indices. -/
theorem C33_repeated_index : ∃ arrs new hmap, decomposeNetwork 3 [(⟨[2, 2], fun k => (k : ℤ) + 1⟩ : NDArray ℤ), eye2] [[0, 1], [0, 1]] =
    some (.ok (arrs, new, hmap)) ∧ new = [[0, 0], []] := by
  obtain ⟨a, b, c, h1, h2⟩ := exists_result
    (r := decomposeNetwork 3 [(⟨[2, 2], fun k => (k : ℤ) + 1⟩ : NDArray ℤ), eye2] [[0, 1], [0, 1]])
    (p := fun _ new _ => decide (new = [[0, 0], []])) (by decide +kernel)
  exact ⟨a, b, c, h1, by simpa using h2⟩

/-- `V(0) * diag(1, 2)(0, 1) * W(1)`: the matrix becomes a vector, index 1 becomes 0, and no index vanishes. -/
example : ∃ arrs new hmap, decomposeNetwork 3 [(⟨[2], fun k => (k : ℤ) + 1⟩ : NDArray ℤ), ⟨[2, 2], fun k => if k = 0 then 1 else if k = 3 then 2 else 0⟩,
    ⟨[2], fun k => (k : ℤ) + 5⟩] [[0], [0, 1], [1]] = some (.ok (arrs, new, hmap)) ∧ new = [[0], [0], [0]] ∧ hmap = [(0, 0), (1, 0)] := by
  obtain ⟨a, b, c, h1, h2⟩ := exists_result
    (r := decomposeNetwork 3 [(⟨[2], fun k => (k : ℤ) + 1⟩ : NDArray ℤ), ⟨[2, 2], fun k => if k = 0 then 1 else if k = 3 then 2 else 0⟩,
    ⟨[2], fun k => (k : ℤ) + 5⟩] [[0], [0, 1], [1]])
    (p := fun _ new hmap => decide (new = [[0], [0], [0]] ∧ hmap = [(0, 0), (1, 0)])) (by decide +kernel)
  exact ⟨a, b, c, h1, by simpa using h2⟩

end TNCO
