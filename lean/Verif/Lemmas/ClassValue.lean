import Verif.Lemmas.DecomposeNet
import Verif.Lemmas.SumClass

/-! The value of a network after indices were merged. -/

namespace TNCO
variable {ι R : Type} [DecidableEq ι] [CommRing R]

/-- A network and another one where every index `x` is replaced by `ρ x`. -/
structure ClassMap (d : ι → ℕ) (arrays : List (NDArray R)) (tsInds : List (List ι)) (arrs : List (NDArray R)) (new : List (List ι))
    (ρ : ι → ι) : Prop where
  mem : ∀ x ∈ tsInds.flatten, ρ x ∈ tsInds.flatten
  idem : ∀ x ∈ tsInds.flatten, ρ (ρ x) = ρ x
  dims : ∀ x ∈ tsInds.flatten, d (ρ x) = d x
  sub : ∀ y ∈ new.flatten, ∃ x ∈ tsInds.flatten, ρ x = y
  keep : ∀ f : ι → ℕ, (∀ x ∈ tsInds.flatten, f x < d x) → (∀ x ∈ tsInds.flatten, f x = f (ρ x)) →
    ((arrays.zip tsInds).map fun t => t.1.get (t.2.map f)).prod = ((arrs.zip new).map fun t => t.1.get (t.2.map f)).prod
  zero : ∀ f : ι → ℕ, (∀ x ∈ tsInds.flatten, f x < d x) → (¬ ∀ x ∈ tsInds.flatten, f x = f (ρ x)) →
    ((arrays.zip tsInds).map fun t => t.1.get (t.2.map f)).prod = 0

theorem NetDecomposed.classMap {d : ι → ℕ} {arrays : List (NDArray R)} {tsInds : List (List ι)} {arrs : List (NDArray R)} {new : List (List ι)}
    {hmap : List (ι × ι)} {ρ : ι → ι} (D : NetDecomposed d arrays tsInds arrs new hmap ρ) : ClassMap d arrays tsInds arrs new ρ :=
  ⟨D.mem, D.idem, D.dims, D.sub, D.keep, D.zero⟩

theorem ClassMap.value {d : ι → ℕ} {arrays : List (NDArray R)} {tsInds : List (List ι)} {arrs : List (NDArray R)} {new : List (List ι)}
    {ρ : ι → ι} (D : ClassMap d arrays tsInds arrs new ρ) {out : Finset ι} (ho : ∀ x ∈ out, x ∈ tsInds.flatten) {l l' van : List ι}
    (nl : l.Nodup) (nl' : l'.Nodup) (nv : van.Nodup)
    (hl : ∀ x, x ∈ l ↔ x ∈ tsInds.flatten ∧ x ∉ out) (hl' : ∀ y, y ∈ l' ↔ y ∈ new.flatten ∧ y ∉ out.image ρ)
    (hvan : ∀ y, y ∈ van ↔ (∃ x ∈ tsInds.flatten, ρ x = y) ∧ y ∉ new.flatten ∧ y ∉ out.image ρ)
    {f : ι → ℕ} (hf : ∀ x ∈ out, f x < d x) :
          (∀ f' : ι → ℕ, (∀ x ∈ out, f' (ρ x) = f x) →
            einsum d l ((arrays.zip tsInds).map fun t g => t.1.get (t.2.map g)) f =
            ((van.map d).prod : ℕ) * einsum d l' ((arrs.zip new).map fun t g => t.1.get (t.2.map g)) f') ∧
          ((∃ x ∈ out, ∃ y ∈ out, ρ x = ρ y ∧ f x ≠ f y) →
            einsum d l ((arrays.zip tsInds).map fun t g => t.1.get (t.2.map g)) f = 0) := by
  set T : (ι → ℕ) → R := fun g => ((arrays.zip tsInds).map fun t => t.1.get (t.2.map g)).prod with hT
  set P : (ι → ℕ) → R := fun g => ((arrs.zip new).map fun t => t.1.get (t.2.map g)).prod with hP
  have eT : einsum d l ((arrays.zip tsInds).map fun t g => t.1.get (t.2.map g)) f = sumOver d l T f := by
    unfold einsum; simp only [List.map_map, Function.comp_def, hT]
  have eP : ∀ f', einsum d l' ((arrs.zip new).map fun t g => t.1.get (t.2.map g)) f' = sumOver d l' P f' := by
    intro f'; unfold einsum; simp only [List.map_map, Function.comp_def, hP]
  have hPdep : ∀ g g' : ι → ℕ, (∀ y ∈ new.flatten, g y = g' y) → P g = P g' := by
    intro g g' hg
    rw [hP]
    simp only
    congr 1
    refine List.map_congr_left fun t ht => ?_
    congr 1
    refine List.map_congr_left fun y hy => hg y (List.mem_flatten.2 ⟨t.2, (List.of_mem_zip ht).2, hy⟩)
  have hrange : ∀ g : ι → ℕ, (∀ x, x ∉ l → g x = f x) → (∀ x ∈ l, g x < d x) → ∀ x ∈ tsInds.flatten, g x < d x := by
    intro g h1 h2 x hx
    by_cases hxl : x ∈ l
    · exact h2 x hxl
    · rw [h1 x hxl]
      refine hf x ?_
      by_contra hxo
      exact hxl ((hl x).2 ⟨hx, hxo⟩)
  have hnotl : ∀ x ∈ out, x ∉ l := fun x hx hxl => ((hl x).1 hxl).2 hx
  refine ⟨?_, ?_⟩
  · intro f' hf'
    rw [eT, eP]
    have hcons : ∀ x ∈ out, ∀ y ∈ out, ρ x = ρ y → f x = f y := by
      intro x hx y hy he
      rw [← hf' x hx, ← hf' y hy, he]
    classical
    set pick : ι → ι := fun r => if hh : ∃ o ∈ out, ρ o = r then hh.choose else r with hpick
    have pick_out : ∀ r, (∃ o ∈ out, ρ o = r) → pick r ∈ out ∧ ρ (pick r) = r := by
      intro r hh
      rw [hpick]
      simp only [dif_pos hh]
      exact hh.choose_spec
    have pick_not : ∀ r, ¬ (∃ o ∈ out, ρ o = r) → pick r = r := by
      intro r hh
      rw [hpick]
      simp only [dif_neg hh]
    set π : ι → ι := fun x => pick (ρ x) with hπ
    have πmem : ∀ x ∈ tsInds.flatten, π x ∈ tsInds.flatten ∧ ρ (π x) = ρ x := by
      intro x hx
      by_cases hh : ∃ o ∈ out, ρ o = ρ x
      · obtain ⟨h1, h2⟩ := pick_out _ hh
        exact ⟨ho _ h1, h2⟩
      · have : π x = ρ x := pick_not _ hh
        rw [this]
        exact ⟨D.mem x hx, D.idem x hx⟩
    have πρ : ∀ x ∈ tsInds.flatten, π (ρ x) = π x := fun x hx => by rw [hπ]; simp only; rw [D.idem x hx]
    have ππ : ∀ x ∈ tsInds.flatten, π (π x) = π x := by
      intro x hx
      have := (πmem x hx).2
      rw [hπ] at this ⊢
      simp only at this ⊢
      rw [this]
    set N := l.filter fun x => π x ≠ x with hN
    set Pv := l.filter fun x => π x = x with hPv
    have hperm : l.Perm (Pv ++ N) := by
      rw [hPv, hN]
      have := List.filter_append_perm (fun x => decide (π x = x)) l
      refine this.symm.trans (List.Perm.append_left _ ?_)
      refine List.Perm.of_eq (List.filter_congr fun x _ => by simp)
    have memN : ∀ x, x ∈ N ↔ x ∈ l ∧ π x ≠ x := fun x => by rw [hN, List.mem_filter, decide_eq_true_eq]
    have memP : ∀ x, x ∈ Pv ↔ x ∈ l ∧ π x = x := fun x => by rw [hPv, List.mem_filter, decide_eq_true_eq]
    have memP' : ∀ y, y ∈ Pv ↔ (∃ x ∈ tsInds.flatten, ρ x = y) ∧ y ∉ out.image ρ := by
      intro y
      rw [memP, hl]
      constructor
      · rintro ⟨⟨hy, hyo⟩, he⟩
        have hno : ¬ ∃ o ∈ out, ρ o = ρ y := by
          intro hh
          have := (pick_out _ hh).1
          rw [show pick (ρ y) = y from he] at this
          exact hyo this
        have hr : ρ y = y := (pick_not _ hno).symm.trans he
        refine ⟨⟨y, hy, hr⟩, fun hi => ?_⟩
        obtain ⟨o, ho1, ho2⟩ := Finset.mem_image.1 hi
        exact hno ⟨o, ho1, by rw [ho2, hr]⟩
      · rintro ⟨⟨x, hx, rfl⟩, hyo⟩
        refine ⟨⟨D.mem x hx, fun hi => hyo (Finset.mem_image.2 ⟨ρ x, hi, D.idem x hx⟩)⟩, ?_⟩
        have hno : ¬ ∃ o ∈ out, ρ o = ρ x := fun ⟨o, h1, h2⟩ => hyo (Finset.mem_image.2 ⟨o, h1, h2⟩)
        rw [πρ x hx]
        exact pick_not _ hno
    have hp2 : Pv.Perm (l' ++ van) := by
      refine perm_of_mem (nl.filter _) ?_ ?_
      · rw [List.nodup_append]
        refine ⟨nl', nv, fun a ha b hb hab => ?_⟩
        exact ((hvan b).1 hb).2.1 (hab ▸ ((hl' a).1 ha).1)
      · intro y
        rw [memP', List.mem_append, hl', hvan]
        constructor
        · rintro ⟨h1, h2⟩
          by_cases hy : y ∈ new.flatten
          · exact Or.inl ⟨hy, h2⟩
          · exact Or.inr ⟨h1, hy, h2⟩
        · rintro (⟨h1, h2⟩ | ⟨h1, -, h2⟩)
          · exact ⟨D.sub y h1, h2⟩
          · exact ⟨h1, h2⟩
    have hNn : N.Nodup := nl.filter _
    have hπN : ∀ x ∈ N, π x ∉ N := by
      intro x hx hx2
      exact ((memN _).1 hx2).2 (ππ x ((hl x).1 ((memN x).1 hx).1).1)
    rw [sumOver_perm hperm nl, sumOver_append]
    have hrhs : ((van.map d).prod : ℕ) * sumOver d l' P f' = sumOver d Pv P f' := by
      rw [sumOver_perm hp2 (nl.filter _), sumOver_append]
      have h1 : sumOver d l' (fun g => sumOver d van P g) f' = sumOver d l' (fun g => ((van.map d).prod : ℕ) * P g) f' := by
        refine sumOver_congr fun g _ _ => sumOver_free fun g' hg' => hPdep _ _ fun y hy => hg' y fun hv => ?_
        exact ((hvan y).1 hv).2.1 hy
      rw [h1]
      exact (sumOver_mul_left (fun _ => (((van.map d).prod : ℕ) : R)) P fun _ _ => rfl).symm
    rw [hrhs]
    refine sumOver_congr_base fun g g' hg hg' hgg => ?_
    have hsum : sumOver d N T g = sumOver d N (fun k => if ∀ x ∈ N, k x = k (π x) then P k else 0) g := by
      refine sumOver_congr fun k hk1 hk2 => ?_
      have koff : ∀ x, x ∉ l → k x = f x := by
        intro x hx
        rw [hk1 x fun hxN => hx ((memN x).1 hxN).1, hg x fun hxP => hx ((memP x).1 hxP).1]
      have kin : ∀ x ∈ l, k x < d x := by
        intro x hx
        by_cases hxN : x ∈ N
        · exact hk2 x hxN
        · rw [hk1 x hxN]
          have : x ∈ Pv := (memP x).2 ⟨hx, by by_contra hne; exact hxN ((memN x).2 ⟨hx, hne⟩)⟩
          exact (hgg x this).1
      have kr := hrange k koff kin
      have hiff : (∀ x ∈ tsInds.flatten, k x = k (ρ x)) ↔ ∀ x ∈ N, k x = k (π x) := by
        constructor
        · intro hh x hx
          have hxf := ((hl x).1 ((memN x).1 hx).1).1
          rw [hh x hxf, hh (π x) (πmem x hxf).1, (πmem x hxf).2]
        · intro hh
          have key : ∀ x ∈ tsInds.flatten, k x = k (π x) := by
            intro x hx
            by_cases hxo : x ∈ out
            · have hex : ∃ o ∈ out, ρ o = ρ x := ⟨x, hxo, rfl⟩
              obtain ⟨h1, h2⟩ := pick_out _ hex
              rw [koff x (hnotl x hxo), show π x = pick (ρ x) from rfl, koff _ (hnotl _ h1)]
              exact hcons x hxo _ h1 h2.symm
            · by_cases hpx : π x = x
              · rw [hpx]
              · exact hh x ((memN x).2 ⟨(hl x).2 ⟨hx, hxo⟩, hpx⟩)
          intro x hx
          rw [key x hx, key (ρ x) (D.mem x hx), πρ x hx]
      by_cases hcd : ∀ x ∈ tsInds.flatten, k x = k (ρ x)
      · rw [if_pos (hiff.1 hcd)]
        exact D.keep k kr hcd
      · rw [if_neg fun hh => hcd (hiff.2 hh)]
        exact D.zero k kr hcd
    rw [hsum, sumOver_collapse hNn hπN]
    · refine hPdep _ _ fun y hy => ?_
      obtain ⟨x, hx, rfl⟩ := D.sub y hy
      by_cases hyP : ρ x ∈ Pv
      · rw [if_neg fun hyN => ((memN _).1 hyN).2 ((memP _).1 hyP).2]
        exact (hgg _ hyP).2
      · have hyo : ρ x ∈ out.image ρ := by
          by_contra hno
          exact hyP ((memP' _).2 ⟨⟨x, hx, rfl⟩, hno⟩)
        obtain ⟨o, ho1, ho2⟩ := Finset.mem_image.1 hyo
        have hex : ∃ o ∈ out, ρ o = ρ (ρ x) := ⟨o, ho1, by rw [ho2, D.idem x hx]⟩
        obtain ⟨h1, h2⟩ := pick_out _ hex
        rw [hg' _ hyP]
        by_cases hyN : ρ x ∈ N
        · rw [if_pos hyN, show π (ρ x) = pick (ρ (ρ x)) from rfl, hg _ fun hh => hnotl _ h1 ((memP _).1 hh).1]
          rw [← hf' _ h1, h2, D.idem x hx]
        · rw [if_neg hyN, hg _ hyP]
          have hyout : ρ x ∈ out := by
            by_contra hno
            have hyl := (hl (ρ x)).2 ⟨D.mem x hx, hno⟩
            have hpy : π (ρ x) = ρ x := by by_contra hne; exact hyN ((memN _).2 ⟨hyl, hne⟩)
            exact hyP ((memP _).2 ⟨hyl, hpy⟩)
          rw [← hf' _ hyout, D.idem x hx]
    · intro x hx
      have hxf := ((hl x).1 ((memN x).1 hx).1).1
      obtain ⟨h1, h2⟩ := πmem x hxf
      have hd : d (π x) = d x := by rw [← D.dims _ h1, h2, D.dims x hxf]
      rw [← hd]
      by_cases hp : π x ∈ Pv
      · exact (hgg _ hp).1
      · rw [hg _ hp]
        refine hf _ ?_
        by_contra hno
        exact hp ((memP _).2 ⟨(hl _).2 ⟨h1, hno⟩, ππ x hxf⟩)
  · rintro ⟨x, hx, y, hy, he, hne⟩
    rw [eT]
    refine sumOver_zero fun g h1 h2 => D.zero g (hrange g h1 h2) fun hh => ?_
    apply hne
    rw [← h1 x (hnotl x hx), ← h1 y (hnotl y hy), hh x (ho x hx), hh y (ho y hy), he]

end TNCO
