import Verif.Lemmas.Colour
import Verif.Lemmas.Decompose
import Verif.Lemmas.ContractIn

/-! Decomposing a network: entries. -/

namespace TNCO
variable {ι R : Type} [DecidableEq ι] [CommRing R] [DecidableEq R]

theorem dget_dupdate_nil {κ ν : Type} [DecidableEq κ] {l : List (κ × ν)} {k : κ} {v : ν} (hm : (k, v) ∈ l)
    (hu : ∀ v', (k, v') ∈ l → v' = v) : dget (dupdate [] l) k = some v := by
  rw [dget_dupdate, show dget ([] : List (κ × ν)) k = none from rfl, Option.or_none]
  cases h : dget l.reverse k with
  | none =>
    rw [dget_none] at h
    exact absurd (List.mem_map.2 ⟨(k, v), List.mem_reverse.2 hm, rfl⟩) h
  | some v' => rw [hu v' (List.mem_reverse.1 (dget_mem h))]

theorem dget_dupdate_nil_mem {κ ν : Type} [DecidableEq κ] {l : List (κ × ν)} {k : κ} {v : ν} (h : dget (dupdate [] l) k = some v) :
    (k, v) ∈ l := by
  rw [dget_dupdate, show dget ([] : List (κ × ν)) k = none from rfl, Option.or_none] at h
  exact List.mem_reverse.1 (dget_mem h)

theorem mapM_option_forall2 {α β : Type} {f : α → Option β} {l : List α} {r : List β} (h : l.mapM f = some r) :
    List.Forall₂ (fun a b => f a = some b) l r := by
  induction l generalizing r with
  | nil => simp only [List.mapM_nil] at h; obtain rfl := Option.some.inj h; exact .nil
  | cons a l ih =>
    rw [List.mapM_cons] at h
    cases ha : f a with
    | none => rw [ha] at h; exact absurd h (by intro h; cases h)
    | some b =>
      cases hl : l.mapM f with
      | none => rw [ha, hl] at h; exact absurd h (by intro h; cases h)
      | some t =>
        rw [ha, hl] at h
        obtain rfl : b :: t = r := Option.some.inj h
        exact .cons ha (ih hl)

theorem mapM_except_id {α ε : Type} {l : List (Except ε α)} {r : List α} (h : l.mapM id = .ok r) :
    List.Forall₂ (fun a b => a = .ok b) l r := by
  induction l generalizing r with
  | nil => simp only [List.mapM_nil] at h; obtain rfl := Except.ok.inj h; exact .nil
  | cons a l ih =>
    rw [List.mapM_cons] at h
    cases ha : a with
    | error e => rw [ha] at h; exact absurd h (by intro h; cases h)
    | ok b =>
      cases hl : l.mapM id with
      | error e => rw [ha, hl] at h; exact absurd h (by intro h; cases h)
      | ok t =>
        rw [ha, hl] at h
        obtain rfl : b :: t = r := Except.ok.inj h
        exact .cons rfl (ih hl)

theorem mapM_except_id_of {α ε : Type} {l : List (Except ε α)} {r : List α} (h : List.Forall₂ (fun a b => a = .ok b) l r) :
    l.mapM id = .ok r := by
  induction h with
  | nil => rfl
  | cons hab _ ih => rw [List.mapM_cons, ih, hab]; rfl

theorem forall2_right {α β : Type} {r : α → β → Prop} {l : List α} {m : List β} (h : List.Forall₂ r l m) {b : β} (hb : b ∈ m) :
    ∃ a ∈ l, r a b := by
  induction h with
  | nil => simp at hb
  | cons h1 h2 ih =>
    rcases List.mem_cons.1 hb with rfl | hb
    · exact ⟨_, by simp, h1⟩
    · obtain ⟨t, ht, h3⟩ := ih hb
      exact ⟨t, by simp [ht], h3⟩

/-- The entries of the network after decomposing hyper-indices. -/
structure NetDecomposed (d : ι → ℕ) (arrays : List (NDArray R)) (tsInds : List (List ι)) (arrs : List (NDArray R)) (new : List (List ι))
    (hmap : List (ι × ι)) (ρ : ι → ι) : Prop where
  map : ∀ x ∈ tsInds.flatten, dget hmap x = some (ρ x)
  dom : ∀ x r, dget hmap x = some r → x ∈ tsInds.flatten
  mem : ∀ x ∈ tsInds.flatten, ρ x ∈ tsInds.flatten
  idem : ∀ x ∈ tsInds.flatten, ρ (ρ x) = ρ x
  first : ∀ x ∈ tsInds.flatten, (uniqueEverseen tsInds.flatten).idxOf (ρ x) ≤ (uniqueEverseen tsInds.flatten).idxOf x
  dims : ∀ x ∈ tsInds.flatten, d (ρ x) = d x
  consistent : Consistent d arrs new
  length : arrs.length = arrays.length
  sub : ∀ y ∈ new.flatten, ∃ x ∈ tsInds.flatten, ρ x = y
  keep : ∀ f : ι → ℕ, (∀ x ∈ tsInds.flatten, f x < d x) → (∀ x ∈ tsInds.flatten, f x = f (ρ x)) →
    ((arrays.zip tsInds).map fun t => t.1.get (t.2.map f)).prod = ((arrs.zip new).map fun t => t.1.get (t.2.map f)).prod
  zero : ∀ f : ι → ℕ, (∀ x ∈ tsInds.flatten, f x < d x) → (¬ ∀ x ∈ tsInds.flatten, f x = f (ρ x)) →
    ((arrays.zip tsInds).map fun t => t.1.get (t.2.map f)).prod = 0

theorem merged_iff {H : List (ι × Finset ι)} (hn : (H.map Prod.fst).Nodup) (f : ι → ℕ) :
    Merged H f ↔ ∀ e ∈ H, ∀ x ∈ insert e.1 e.2, ∀ y ∈ insert e.1 e.2, f x = f y := by
  constructor
  · intro h e he
    have key : ∀ x ∈ insert e.1 e.2, f x = f e.1 := by
      intro x hx
      rcases Finset.mem_insert.1 hx with rfl | hx
      · rfl
      · exact h e.1 e.2 (dget_of_mem hn he) x hx
    intro x hx y hy
    rw [key x hx, key y hy]
  · intro h x xs hx y hy
    exact h (x, xs) (dget_mem hx) y (by simp [hy]) x (by simp)

theorem decomposeNetwork_detail {d : ι → ℕ} {fuel : ℕ} {arrays : List (NDArray R)} {tsInds : List (List ι)} (hc : Consistent d arrays tsInds)
    (hn : ∀ xs ∈ tsInds, xs.Nodup) {arrs : List (NDArray R)} {new : List (List ι)} {hmap : List (ι × ι)}
    (h : decomposeNetwork fuel arrays tsInds = some (.ok (arrs, new, hmap))) :
    ∃ (ρ : ι → ι) (rs : List ((NDArray R × List ι) × List (ι × Finset ι))), NetDecomposed d arrays tsInds arrs new hmap ρ ∧
      List.Forall₂ (fun (t : NDArray R × List ι) (b : (NDArray R × List ι) × List (ι × Finset ι)) =>
            Decomposed d t.1 t.2 [] b.1.1 b.1.2 b.2 ∧ t ∈ arrays.zip tsInds) (arrays.zip tsInds) rs ∧
      arrs = (rs.map fun r => r.1.1) ∧ new = (rs.map fun r => r.1.2.map ρ) ∧ (hmap.map Prod.fst).Nodup ∧
      ∀ f : ι → ℕ, (∀ r ∈ rs, Merged r.2 f) ↔ ∀ x ∈ tsInds.flatten, f x = f (ρ x) := by
  unfold decomposeNetwork at h
  cases hm : (arrays.zip tsInds).mapM fun t => decomposeTensor fuel t.1 t.2 [] with
  | none => rw [hm] at h; simp at h
  | some rs0 =>
    rw [hm] at h
    simp only at h
    cases hm2 : rs0.mapM id with
    | error e => rw [hm2] at h; simp at h
    | ok rs =>
      rw [hm2] at h
      simp only at h
      have f1 := mapM_option_forall2 hm
      have f2 := mapM_except_id hm2
      have zsub : ∀ t ∈ arrays.zip tsInds, t.2 ∈ tsInds := fun t ht => (List.of_mem_zip ht).2
      have f3 : ∀ (l : List (NDArray R × List ι)) (m) (r), (∀ t ∈ l, t ∈ arrays.zip tsInds) →
          List.Forall₂ (fun a b => decomposeTensor fuel a.1 a.2 [] = some b) l m → List.Forall₂ (fun a b => a = .ok b) m r →
          List.Forall₂ (fun (t : NDArray R × List ι) (b : (NDArray R × List ι) × List (ι × Finset ι)) =>
            Decomposed d t.1 t.2 [] b.1.1 b.1.2 b.2 ∧ t ∈ arrays.zip tsInds) l r := by
        intro l
        induction l with
        | nil => intro m r _ h1 h2; cases h1; cases h2; exact .nil
        | cons t l ih =>
          intro m r hl h1 h2
          cases h1 with
          | cons h1 h1' =>
            cases h2 with
            | cons h2 h2' =>
              rename_i b' m' b r'
              have ht := hl t (by simp)
              refine .cons ⟨?_, ht⟩ (ih _ _ (fun t ht => hl t (by simp [ht])) h1' h2')
              obtain ⟨⟨a', i'⟩, H'⟩ := b
              rw [h2] at h1
              exact decomposeTensor_spec fuel (hc.2 t ht) (hn _ (zsub t ht)) h1
      have f4 := f3 _ _ _ (fun _ h => h) f1 f2
      clear f3 hm hm2 f1 f2
      have hflat : (arrays.zip tsInds).map Prod.snd = tsInds := List.map_snd_zip (by rw [hc.1])
      have hall : ∀ x, x ∈ tsInds.flatten ↔ ∃ t ∈ arrays.zip tsInds, x ∈ t.2 := by
        intro x
        rw [List.mem_flatten]
        constructor
        · rintro ⟨xs, hxs, hx⟩
          rw [← hflat] at hxs
          obtain ⟨t, ht, rfl⟩ := List.mem_map.1 hxs
          exact ⟨t, ht, hx⟩
        · rintro ⟨t, ht, hx⟩
          exact ⟨t.2, zsub t ht, hx⟩
      have hr : ∀ r ∈ rs, ∃ t ∈ arrays.zip tsInds, Decomposed d t.1 t.2 [] r.1.1 r.1.2 r.2 := by
        intro r hr
        obtain ⟨t, ht, h1⟩ : ∃ t ∈ arrays.zip tsInds, Decomposed d t.1 t.2 [] r.1.1 r.1.2 r.2 ∧ t ∈ arrays.zip tsInds := by
          exact forall2_right f4 hr
        exact ⟨t, ht, h1.1⟩
      have hnilget : ∀ x, dget ([] : List (ι × Finset ι)) x = none := fun _ => rfl
      have hin : ∀ e ∈ rs.flatMap fun r => r.2, e.1 ∈ uniqueEverseen tsInds.flatten ∧ ∀ y ∈ e.2, y ∈ uniqueEverseen tsInds.flatten := by
        intro e he
        obtain ⟨r, hrm, her⟩ := List.mem_flatMap.1 he
        obtain ⟨t, ht, hd⟩ := hr r hrm
        have hg := dget_of_mem (hd.keys (by simp)) (k := e.1) (v := e.2) her
        refine ⟨?_, fun y hy => ?_⟩
        · rcases hd.inds_of _ _ hg with ⟨y, ys, h1, -⟩ | h1
          · simp [hnilget] at h1
          · exact mem_uniqueEverseen.2 ((hall _).2 ⟨t, ht, h1⟩)
        · rcases hd.inds_of' _ _ hg y hy with ⟨y, ys, h1, -⟩ | h1
          · simp [hnilget] at h1
          · exact mem_uniqueEverseen.2 ((hall _).2 ⟨t, ht, h1⟩)
      obtain ⟨col, cls, hcl, hinv⟩ := colourLoop_spec (rs.flatMap fun r => r.2) (colInv_init (uniqueEverseen_nodup tsInds.flatten)) hin
      have hofs : (OFS.make tsInds.flatten).iter = uniqueEverseen tsInds.flatten := rfl
      rw [hofs, hcl] at h
      simp only at h
      set pairs := cls.flatMap fun e => e.2.flatMap fun x => (e.2.head?.map fun r => (x, r)).toList with hpairs
      have hpm : ∀ x r, (x, r) ∈ pairs ↔ ∃ c l, dget cls c = some l ∧ x ∈ l ∧ ∃ t, l = r :: t := by
        intro x r
        rw [hpairs]
        simp only [List.mem_flatMap, Option.mem_toList, Option.map_eq_some_iff, Prod.mk.injEq]
        constructor
        · rintro ⟨⟨c, l⟩, he, y, hy, r', hr', rfl, rfl⟩
          refine ⟨c, l, dget_of_mem hinv.keys he, hy, ?_⟩
          cases l with
          | nil => simp at hr'
          | cons a t => simp only [List.head?_cons, Option.some.injEq] at hr'; exact ⟨t, by rw [hr']⟩
        · rintro ⟨c, l, hl, hx, t, rfl⟩
          exact ⟨(c, r :: t), dget_mem hl, x, hx, r, rfl, rfl, rfl⟩
      have huniq : ∀ x r r', (x, r) ∈ pairs → (x, r') ∈ pairs → r' = r := by
        intro x r r' h1 h2
        obtain ⟨c, l, hl, hx, t, rfl⟩ := (hpm x r).1 h1
        obtain ⟨c', l', hl', hx', t', rfl⟩ := (hpm x r').1 h2
        have e1 := (hinv.back c _ hl).2.1 x hx
        have e2 := (hinv.back c' _ hl').2.1 x hx'
        rw [e1] at e2
        rw [← Option.some.inj e2, hl] at hl'
        exact (List.cons.inj (Option.some.inj hl')).1.symm
      set ρ : ι → ι := fun x => (dget (dupdate [] pairs) x).getD x with hρ
      have hrep : ∀ x ∈ tsInds.flatten, ∃ c t, dget col x = some c ∧ dget cls c = some (ρ x :: t) ∧ x ∈ ρ x :: t ∧
          dget (dupdate [] pairs) x = some (ρ x) := by
        intro x hx
        obtain ⟨c, hc'⟩ := hinv.has x (mem_uniqueEverseen.2 hx)
        obtain ⟨-, l, hl, hxl⟩ := hinv.cls_of x c hc'
        obtain ⟨-, -, ⟨r, t, rfl, -⟩, -⟩ := hinv.back c l hl
        have hp : (x, r) ∈ pairs := (hpm x r).2 ⟨c, _, hl, hxl, t, rfl⟩
        have hg : dget (dupdate [] pairs) x = some r := dget_dupdate_nil hp fun r' h' => huniq x r r' hp h'
        have : ρ x = r := by rw [hρ]; simp only; rw [hg]; rfl
        exact ⟨c, t, hc', by rw [this]; exact hl, by rw [this]; exact hxl, by rw [this]; exact hg⟩
      have hcolρ : ∀ x ∈ tsInds.flatten, dget col (ρ x) = dget col x := by
        intro x hx
        obtain ⟨c, t, h1, h2, -, -⟩ := hrep x hx
        rw [h1, (hinv.back c _ h2).2.1 (ρ x) (by simp)]
      have hρmem : ∀ x ∈ tsInds.flatten, ρ x ∈ tsInds.flatten := by
        intro x hx
        obtain ⟨c, t, h1, h2, -, -⟩ := hrep x hx
        exact mem_uniqueEverseen.1 (hinv.cls_of (ρ x) c ((hinv.back c _ h2).2.1 (ρ x) (by simp))).1
      have hρcol : ∀ x ∈ tsInds.flatten, ∀ y ∈ tsInds.flatten, dget col x = dget col y → ρ x = ρ y := by
        intro x hx y hy he
        obtain ⟨c, t, h1, h2, -, -⟩ := hrep x hx
        obtain ⟨c', t', h1', h2', -, -⟩ := hrep y hy
        rw [h1, h1'] at he
        rw [← Option.some.inj he, h2] at h2'
        exact (List.cons.inj (Option.some.inj h2')).1
      -- constant on the classes
      have hconst : ∀ f : ι → ℕ, (∀ r ∈ rs, Merged r.2 f) ↔ ∀ x ∈ tsInds.flatten, f x = f (ρ x) := by
        intro f
        have e1 : (∀ r ∈ rs, Merged r.2 f) ↔
            ∀ g ∈ [] ++ (rs.flatMap fun r => r.2).map fun e => insert e.1 e.2, ∀ x ∈ g, ∀ y ∈ g, f x = f y := by
          rw [List.nil_append]
          constructor
          · intro h1 g hg
            obtain ⟨e, he, rfl⟩ := List.mem_map.1 hg
            obtain ⟨r, hrm, her⟩ := List.mem_flatMap.1 he
            obtain ⟨t, -, hd⟩ := hr r hrm
            exact (merged_iff (hd.keys (by simp)) f).1 (h1 r hrm) e her
          · intro h1 r hrm
            obtain ⟨t, -, hd⟩ := hr r hrm
            refine (merged_iff (hd.keys (by simp)) f).2 fun e he => h1 _ (List.mem_map.2 ⟨e, List.mem_flatMap.2 ⟨r, hrm, he⟩, rfl⟩)
        rw [e1, hinv.fine f]
        constructor
        · intro h1 x hx
          obtain ⟨c, t, h2, -, -, -⟩ := hrep x hx
          exact h1 x (ρ x) c h2 (by rw [hcolρ x hx]; exact h2)
        · intro h1 x y c hx hy
          have mx := mem_uniqueEverseen.1 (hinv.cls_of x c hx).1
          have my := mem_uniqueEverseen.1 (hinv.cls_of y c hy).1
          rw [h1 x mx, h1 y my, hρcol x mx y my (hx.trans hy.symm)]
      cases hnew : rs.mapM fun r => r.1.2.mapM (dget (dupdate [] pairs)) with
      | none => rw [hnew] at h; simp at h
      | some new' =>
        rw [hnew] at h
        simp only [Option.some.injEq, Except.ok.injEq, Prod.mk.injEq] at h
        obtain ⟨rfl, rfl, rfl⟩ := h
        have hnew2 : rs.mapM (fun r => r.1.2.mapM (dget (dupdate [] pairs))) = some (rs.map fun r => r.1.2.map ρ) := by
          refine mapM_of_forall' fun r hrm => mapM_of_forall' fun x hx => ?_
          obtain ⟨t, ht, hd⟩ := hr r hrm
          obtain ⟨-, -, -, -, -, h3⟩ := hrep x ((hall x).2 ⟨t, ht, hd.sub x hx⟩)
          exact h3
        rw [hnew2] at hnew
        obtain rfl := Option.some.inj hnew
        have hzip : ((rs.map fun r => r.1.1).zip (rs.map fun r => r.1.2.map ρ)) = rs.map fun r => (r.1.1, r.1.2.map ρ) := by
          rw [List.zip_map']
        have hmd : ∀ x ∈ tsInds.flatten, d x = d (ρ x) := by
          refine (hconst d).1 fun r hrm => ?_
          obtain ⟨t, ht, hd⟩ := hr r hrm
          exact hd.dims fun x xs hx => by simp [hnilget] at hx
        refine ⟨ρ, rs, ?_, f4, rfl, rfl, dupdate_nodup (by simp) _, hconst⟩
        refine ⟨?_, ?_, hρmem, ?_, ?_, fun x hx => (hmd x hx).symm, ?_, ?_, ?_, ?_, ?_⟩
        · intro x hx
          obtain ⟨-, -, -, -, -, h3⟩ := hrep x hx
          exact h3
        · intro x r hx
          obtain ⟨c, l, hl, hxl, -⟩ := (hpm x r).1 (dget_dupdate_nil_mem hx)
          exact mem_uniqueEverseen.1 (hinv.cls_of x c ((hinv.back c l hl).2.1 x hxl)).1
        · intro x hx
          exact hρcol _ (hρmem x hx) x hx (hcolρ x hx)
        · intro x hx
          obtain ⟨c, t, h1, h2, h3, -⟩ := hrep x hx
          obtain ⟨-, -, ⟨r, t', h4, h5⟩, h6⟩ := hinv.back c _ h2
          rw [← (List.cons.inj h4).1] at h5
          obtain ⟨hlt, h5⟩ := List.getElem?_eq_some_iff.1 h5
          have : (uniqueEverseen tsInds.flatten).idxOf (ρ x) = c := by
            rw [← h5]; exact (uniqueEverseen_nodup _).idxOf_getElem c hlt
          rw [this]
          exact h6 x h3
        · refine ⟨by simp, ?_⟩
          rw [hzip]
          intro t ht
          obtain ⟨r, hrm, rfl⟩ := List.mem_map.1 ht
          obtain ⟨t, ht', hd⟩ := hr r hrm
          simp only
          rw [hd.shape, List.map_map]
          exact List.map_congr_left fun x hx => hmd x ((hall x).2 ⟨t, ht', hd.sub x hx⟩)
        · have := f4.length_eq
          rw [List.length_map, ← this, List.length_zip, hc.1, Nat.min_self]
        · intro y hy
          obtain ⟨ys, hys, hy⟩ := List.mem_flatten.1 hy
          obtain ⟨r, hrm, rfl⟩ := List.mem_map.1 hys
          obtain ⟨x, hx, rfl⟩ := List.mem_map.1 hy
          obtain ⟨t, ht, hd⟩ := hr r hrm
          exact ⟨x, (hall x).2 ⟨t, ht, hd.sub x hx⟩, rfl⟩
        · intro f hf hcf
          rw [hzip, List.map_map]
          have hmg := (hconst f).2 hcf
          clear hnew hnew2 hzip hconst hinv hin hcl hr
          clear_value pairs ρ
          have : ∀ (l : List (NDArray R × List ι)) (m : List ((NDArray R × List ι) × List (ι × Finset ι))), (∀ r ∈ m, Merged r.2 f) →
              List.Forall₂ (fun (t : NDArray R × List ι) (b : (NDArray R × List ι) × List (ι × Finset ι)) =>
                Decomposed d t.1 t.2 [] b.1.1 b.1.2 b.2 ∧ t ∈ arrays.zip tsInds) l m →
              (l.map fun t => t.1.get (t.2.map f)) = m.map ((fun t : NDArray R × List ι => t.1.get (t.2.map f)) ∘ fun r => (r.1.1, r.1.2.map ρ)) := by
            intro l m hm h4
            induction h4 with
            | nil => rfl
            | @cons t r l m h5 _ ih =>
              rw [List.map_cons, List.map_cons, ih fun r hr => hm r (by simp [hr])]
              congr 1
              simp only [Function.comp_apply, List.map_map]
              have h6 := (h5.1.value f (fun x hx => hf x ((hall x).2 ⟨t, h5.2, hx⟩)) (fun x xs hx => by simp [hnilget] at hx)).1
                (hm r (by simp))
              rw [h6]
              congr 1
              refine List.map_congr_left fun x hx => ?_
              exact hcf x ((hall x).2 ⟨t, h5.2, h5.1.sub x hx⟩)
          rw [this _ _ hmg f4]
        · intro f hf hcf
          have hmg : ∃ r ∈ rs, ¬ Merged r.2 f := by
            by_contra hh
            push Not at hh
            exact hcf ((hconst f).1 hh)
          obtain ⟨r, hrm, hnm⟩ := hmg
          obtain ⟨t, ht, hd⟩ := hr r hrm
          refine List.prod_eq_zero (List.mem_map.2 ⟨t, ht, ?_⟩)
          exact (hd.value f (fun x hx => hf x ((hall x).2 ⟨t, ht, hx⟩)) (fun x xs hx => by simp [hnilget] at hx)).2 hnm

theorem decomposeNetwork_spec {d : ι → ℕ} {fuel : ℕ} {arrays : List (NDArray R)} {tsInds : List (List ι)} (hc : Consistent d arrays tsInds)
    (hn : ∀ xs ∈ tsInds, xs.Nodup) {arrs : List (NDArray R)} {new : List (List ι)} {hmap : List (ι × ι)}
    (h : decomposeNetwork fuel arrays tsInds = some (.ok (arrs, new, hmap))) :
    ∃ ρ, NetDecomposed d arrays tsInds arrs new hmap ρ := by
  obtain ⟨ρ, rs, D, -⟩ := decomposeNetwork_detail hc hn h
  exact ⟨ρ, D⟩

end TNCO
