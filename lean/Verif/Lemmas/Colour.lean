import Verif.Model.Decompose
import Verif.Lemmas.Dict
import Verif.Lemmas.Unique
import Verif.Lemmas.Tensordot

/-! The classes of merged indices. -/

namespace TNCO
variable {ι : Type} [DecidableEq ι]

/-- The state of the loop after some groups of indices. -/
structure ColInv (all : List ι) (groups : List (Finset ι)) (col : List (ι × ℕ)) (cls : List (ℕ × List ι)) : Prop where
  keys : (cls.map Prod.fst).Nodup
  has : ∀ x ∈ all, ∃ c, dget col x = some c
  cls_of : ∀ x c, dget col x = some c → x ∈ all ∧ ∃ l, dget cls c = some l ∧ x ∈ l
  back : ∀ c l, dget cls c = some l → l.Nodup ∧ (∀ y ∈ l, dget col y = some c) ∧ (∃ r t, l = r :: t ∧ all[c]? = some r) ∧ ∀ y ∈ l, c ≤ all.idxOf y
  fine : ∀ f : ι → ℕ, (∀ g ∈ groups, ∀ x ∈ g, ∀ y ∈ g, f x = f y) ↔
    ∀ x y c, dget col x = some c → dget col y = some c → f x = f y

theorem mem_sortedNats {s : Finset ℕ} {n : ℕ} : n ∈ sortedNats s ↔ n ∈ s := by
  unfold sortedNats
  rw [List.mem_filter, List.mem_range, decide_eq_true_eq]
  exact ⟨fun h => h.2, fun h => ⟨Nat.lt_succ_of_le (Finset.le_sup (f := id) h), h⟩⟩

theorem sortedNats_sorted (s : Finset ℕ) : (sortedNats s).Pairwise (· ≤ ·) :=
  List.Pairwise.filter _ (List.pairwise_lt_range.imp fun h => Nat.le_of_lt h)

theorem dget_foldl_dpop {κ ν : Type} [DecidableEq κ] (cs : List κ) (D : List (κ × ν)) (k : κ) :
    dget (cs.foldl dpop D) k = if k ∈ cs then none else dget D k := by
  induction cs generalizing D with
  | nil => simp
  | cons c cs ih =>
    rw [List.foldl_cons, ih, dget_dpop]
    by_cases h : k ∈ cs
    · rw [if_pos h, if_pos (by simp [h])]
    · rw [if_neg h]
      by_cases h2 : k = c
      · rw [if_pos h2, if_pos (by simp [h2])]
      · rw [if_neg h2, if_neg (by simp [h, h2])]

theorem foldl_dpop_nodup {κ ν : Type} [DecidableEq κ] (cs : List κ) {D : List (κ × ν)} (h : (D.map Prod.fst).Nodup) :
    ((cs.foldl dpop D).map Prod.fst).Nodup := by
  induction cs generalizing D with
  | nil => exact h
  | cons c cs ih => exact ih (dpop_nodup h c)

theorem foldl_union_spec (ls : List (List ι)) (s : OFS ι) (hs : s.order.Nodup) :
    (ls.foldl (fun (s : OFS ι) t => s.union t) s).iter.Nodup ∧
      (∀ y, y ∈ (ls.foldl (fun (s : OFS ι) t => s.union t) s).iter ↔ y ∈ s.order ∨ ∃ t ∈ ls, y ∈ t) ∧
      ∀ r t, s.order = r :: t → ∃ t', (ls.foldl (fun (s : OFS ι) t => s.union t) s).iter = r :: t' := by
  induction ls generalizing s with
  | nil =>
    refine ⟨hs, fun y => by simp [OFS.iter], fun r t h => ⟨t, h⟩⟩
  | cons l ls ih =>
    have hn : (s.union l).order.Nodup := uniqueEverseen_nodup _
    obtain ⟨i1, i2, i3⟩ := ih (s.union l) hn
    rw [List.foldl_cons]
    refine ⟨i1, ?_, ?_⟩
    · intro y
      rw [i2]
      have : y ∈ (s.union l).order ↔ y ∈ s.order ∨ y ∈ l := by
        unfold OFS.union OFS.make
        simp only [mem_uniqueEverseen, List.mem_append]
      rw [this]
      constructor
      · rintro ((h | h) | ⟨t, ht, h⟩)
        · exact Or.inl h
        · exact Or.inr ⟨l, by simp, h⟩
        · exact Or.inr ⟨t, by simp [ht], h⟩
      · rintro (h | ⟨t, ht, h⟩)
        · exact Or.inl (Or.inl h)
        · rcases List.mem_cons.1 ht with rfl | ht
          · exact Or.inl (Or.inr h)
          · exact Or.inr ⟨t, ht, h⟩
    · intro r t h
      refine i3 r ?_ ?_
      · exact (uniqueLoop [r] (t ++ (OFS.make l).order))
      · unfold OFS.union OFS.make uniqueEverseen
        simp only
        rw [h, List.cons_append]
        conv_lhs => unfold uniqueLoop
        rw [if_neg (by simp)]

theorem colourLoop_spec {all : List ι} (gs : List (ι × Finset ι)) : ∀ {groups : List (Finset ι)} {col : List (ι × ℕ)} {cls : List (ℕ × List ι)},
    ColInv all groups col cls → (∀ e ∈ gs, e.1 ∈ all ∧ ∀ y ∈ e.2, y ∈ all) →
    ∃ col' cls', colourLoop gs col cls = .ok (col', cls') ∧ ColInv all (groups ++ gs.map fun e => insert e.1 e.2) col' cls' := by
  induction gs with
  | nil => intro groups col cls h _; exact ⟨col, cls, rfl, by simpa using h⟩
  | cons e gs ih =>
    obtain ⟨x, xs⟩ := e
    intro groups col cls h hg
    have hgr : ∀ y ∈ insert x xs, y ∈ all := by
      intro y hy
      rcases Finset.mem_insert.1 hy with rfl | hy
      · exact (hg (y, xs) (by simp)).1
      · exact (hg (x, xs) (by simp)).2 y hy
    unfold colourLoop
    by_cases hxs : xs = ∅
    · rw [if_pos hxs]
      have hinv : ColInv all (groups ++ [insert x xs]) col cls := by
        refine ⟨h.keys, h.has, h.cls_of, h.back, fun f => ?_⟩
        rw [← h.fine f]
        constructor
        · intro hh g hgm; exact hh g (by simp [hgm])
        · intro hh g hgm a ha b hb
          rcases List.mem_append.1 hgm with hgm | hgm
          · exact hh g hgm a ha b hb
          · rw [List.mem_singleton.1 hgm, hxs] at ha hb
            simp only [insert_empty_eq, Finset.mem_singleton] at ha hb
            rw [ha, hb]
      obtain ⟨col', cls', h1, h2⟩ := ih hinv fun e he => hg e (by simp [he])
      exact ⟨col', cls', h1, by simpa using h2⟩
    · rw [if_neg hxs]
      simp only
      rw [if_neg (by
        rintro ⟨y, hy, hn⟩
        obtain ⟨c, hc⟩ := h.has y (hgr y hy)
        rw [hn] at hc; simp at hc)]
      set cs := sortedNats ((insert x xs).image fun y => (dget col y).getD 0) with hcs
      have hmem : ∀ c, c ∈ cs ↔ ∃ y ∈ insert x xs, dget col y = some c := by
        intro c
        rw [hcs, mem_sortedNats, Finset.mem_image]
        constructor
        · rintro ⟨y, hy, rfl⟩
          obtain ⟨c, hc⟩ := h.has y (hgr y hy)
          exact ⟨y, hy, by rw [hc]; rfl⟩
        · rintro ⟨y, hy, hc⟩
          exact ⟨y, hy, by rw [hc]; rfl⟩
      have hsort : cs.Pairwise (· ≤ ·) := by rw [hcs]; exact sortedNats_sorted _
      set F : ℕ → List ι := fun c => (dget cls c).getD [] with hF
      have hls : cs.mapM (dget cls) = some (cs.map F) := by
        refine mapM_of_forall' fun c hc => ?_
        obtain ⟨y, hy, hyc⟩ := (hmem c).1 hc
        obtain ⟨l, hl, -⟩ := (h.cls_of y c hyc).2
        rw [hF]; simp only; rw [hl]; rfl
      have hFc : ∀ c ∈ cs, dget cls c = some (F c) := by
        intro c hc
        obtain ⟨y, hy, hyc⟩ := (hmem c).1 hc
        obtain ⟨l, hl, -⟩ := (h.cls_of y c hyc).2
        rw [hF]; simp only; rw [hl]; rfl
      rw [hls]
      have hne : cs ≠ [] := by
        intro he
        obtain ⟨c, hc⟩ := h.has x (hgr x (by simp))
        have := (hmem c).2 ⟨x, by simp, hc⟩
        rw [he] at this; simp at this
      clear_value cs
      obtain ⟨c0, ct, rfl⟩ := List.exists_cons_of_ne_nil hne
      simp only
      set l := (((c0 :: ct).map F).foldl (fun (s : OFS ι) t => s.union t) (OFS.make [])).iter with hl
      obtain ⟨l1, l2, -⟩ := foldl_union_spec ((c0 :: ct).map F) (OFS.make ([] : List ι)) (by simp [OFS.make, uniqueEverseen, uniqueLoop])
      rw [← hl] at l1 l2
      have hlm : ∀ y, y ∈ l ↔ ∃ c ∈ c0 :: ct, dget col y = some c := by
        intro y
        rw [l2]
        simp only [OFS.make, uniqueEverseen, uniqueLoop, List.not_mem_nil, false_or, List.mem_map]
        constructor
        · rintro ⟨t, ⟨c, hc, rfl⟩, hy⟩
          exact ⟨c, hc, (h.back c _ (hFc c hc)).2.1 y hy⟩
        · rintro ⟨c, hc, hy⟩
          obtain ⟨l', hl', hyl⟩ := (h.cls_of y c hy).2
          rw [hFc c hc] at hl'
          exact ⟨F c, ⟨c, hc, rfl⟩, by rw [Option.some.inj hl']; exact hyl⟩
      have hhead : ∃ r t, l = r :: t ∧ all[c0]? = some r := by
        obtain ⟨-, -, ⟨r, t, hrt, hr⟩, -⟩ := h.back c0 _ (hFc c0 (by simp))
        rw [hl, List.map_cons, List.foldl_cons]
        have hu : ((OFS.make ([] : List ι)).union (F c0)).order = r :: t := by
          have hn := (h.back c0 _ (hFc c0 (by simp))).1
          unfold OFS.union OFS.make
          simp only
          rw [show uniqueEverseen ([] : List ι) = [] from rfl, List.nil_append, uniqueEverseen_of_nodup hn, uniqueEverseen_of_nodup hn, hrt]
        obtain ⟨-, -, h3⟩ := foldl_union_spec (ct.map F) ((OFS.make ([] : List ι)).union (F c0)) (uniqueEverseen_nodup _)
        obtain ⟨t', ht'⟩ := h3 r t hu
        exact ⟨r, t', ht', hr⟩
      have hmin : ∀ c ∈ c0 :: ct, c0 ≤ c := by
        intro c hc
        rcases List.mem_cons.1 hc with rfl | hc
        · exact le_refl _
        · exact (List.pairwise_cons.1 hsort).1 c hc
      have gcls : ∀ c, dget (dset ((c0 :: ct).foldl dpop cls) c0 l) c =
          if c = c0 then some l else if c ∈ c0 :: ct then none else dget cls c := by
        intro c; rw [dget_dset, dget_foldl_dpop]
      have gcol : ∀ y, dget (dupdate col (l.map fun y => (y, c0))) y = if y ∈ l then some c0 else dget col y := dget_dupdate_const col l c0
      have hinv : ColInv all (groups ++ [insert x xs]) (dupdate col (l.map fun y => (y, c0))) (dset ((c0 :: ct).foldl dpop cls) c0 l) := by
        refine ⟨dset_nodup (foldl_dpop_nodup _ h.keys) _ _, ?_, ?_, ?_, ?_⟩
        · intro y hy
          rw [gcol]
          split
          · exact ⟨_, rfl⟩
          · exact h.has y hy
        · intro y c hy
          rw [gcol] at hy
          split at hy
          · rename_i hyl
            obtain ⟨c', hc', hyc⟩ := (hlm y).1 hyl
            refine ⟨(h.cls_of y c' hyc).1, l, ?_, hyl⟩
            rw [gcls, if_pos (Option.some.inj hy).symm]
          · rename_i hyl
            obtain ⟨ha, l', hl', hyl'⟩ := h.cls_of y c hy
            have hc : c ∉ c0 :: ct := fun hc => hyl ((hlm y).2 ⟨c, hc, hy⟩)
            refine ⟨ha, l', ?_, hyl'⟩
            rw [gcls, if_neg (fun e => hc (by simp [e])), if_neg hc]
            exact hl'
        · intro c l' hl'
          rw [gcls] at hl'
          split at hl'
          · rename_i hc
            obtain rfl := Option.some.inj hl'
            subst hc
            refine ⟨l1, fun y hy => by rw [gcol, if_pos hy], hhead, ?_⟩
            intro y hy
            obtain ⟨c', hc', hyc⟩ := (hlm y).1 hy
            obtain ⟨l'', hl'', hy''⟩ := (h.cls_of y c' hyc).2
            exact (hmin c' hc').trans ((h.back c' l'' hl'').2.2.2 y hy'')
          · split at hl'
            · simp at hl'
            · rename_i hc0 hc
              obtain ⟨b1, b2, b3, b4⟩ := h.back c l' hl'
              refine ⟨b1, fun y hy => ?_, b3, b4⟩
              rw [gcol, if_neg]
              · exact b2 y hy
              · intro hyl
                obtain ⟨c', hc', hyc⟩ := (hlm y).1 hyl
                rw [b2 y hy] at hyc
                exact hc ((Option.some.inj hyc) ▸ hc')
        · intro f
          have hsplit : (∀ g ∈ groups ++ [insert x xs], ∀ a ∈ g, ∀ b ∈ g, f a = f b) ↔
              (∀ g ∈ groups, ∀ a ∈ g, ∀ b ∈ g, f a = f b) ∧ ∀ a ∈ insert x xs, ∀ b ∈ insert x xs, f a = f b := by
            constructor
            · intro hh
              exact ⟨fun g hg' => hh g (by simp [hg']), fun a ha b hb => hh (insert x xs) (by simp) a ha b hb⟩
            · rintro ⟨h1, h2⟩ g hg'
              rcases List.mem_append.1 hg' with hg' | hg'
              · exact h1 g hg'
              · rw [List.mem_singleton.1 hg']; exact h2
          rw [hsplit, h.fine f]
          constructor
          · rintro ⟨h1, h2⟩ a b c ha hb
            rw [gcol] at ha hb
            have key : ∀ a b, a ∈ l → b ∈ l → f a = f b := by
              intro a b ha hb
              obtain ⟨ca, hca, hac⟩ := (hlm a).1 ha
              obtain ⟨cb, hcb, hbc⟩ := (hlm b).1 hb
              obtain ⟨a', ha', hac'⟩ := (hmem ca).1 hca
              obtain ⟨b', hb', hbc'⟩ := (hmem cb).1 hcb
              rw [h1 a a' ca hac hac', h1 b b' cb hbc hbc', h2 a' ha' b' hb']
            have key2 : ∀ a b, a ∈ l → dget col b = some c0 → b ∈ l := fun a b _ hb => (hlm b).2 ⟨c0, by simp, hb⟩
            split at ha <;> split at hb
            · rename_i h3 h4; exact key a b h3 h4
            · rename_i h3 h4
              rw [← Option.some.inj ha] at hb
              exact absurd (key2 a b h3 hb) h4
            · rename_i h3 h4
              rw [← Option.some.inj hb] at ha
              exact absurd (key2 b a h4 ha) h3
            · exact h1 a b c ha hb
          · intro hh
            refine ⟨fun a b c ha hb => ?_, fun a ha b hb => ?_⟩
            · by_cases hc : c ∈ c0 :: ct
              · exact hh a b c0 (by rw [gcol, if_pos ((hlm a).2 ⟨c, hc, ha⟩)]) (by rw [gcol, if_pos ((hlm b).2 ⟨c, hc, hb⟩)])
              · refine hh a b c ?_ ?_
                · rw [gcol, if_neg]
                  · exact ha
                  · intro hl'
                    obtain ⟨c', hc', hac⟩ := (hlm a).1 hl'
                    rw [ha] at hac
                    exact hc (Option.some.inj hac ▸ hc')
                · rw [gcol, if_neg]
                  · exact hb
                  · intro hl'
                    obtain ⟨c', hc', hac⟩ := (hlm b).1 hl'
                    rw [hb] at hac
                    exact hc (Option.some.inj hac ▸ hc')
            · obtain ⟨ca, hca⟩ := h.has a (hgr a ha)
              obtain ⟨cb, hcb⟩ := h.has b (hgr b hb)
              exact hh a b c0 (by rw [gcol, if_pos ((hlm a).2 ⟨ca, (hmem ca).2 ⟨a, ha, hca⟩, hca⟩)])
                (by rw [gcol, if_pos ((hlm b).2 ⟨cb, (hmem cb).2 ⟨b, hb, hcb⟩, hcb⟩)])
      obtain ⟨col', cls', h1, h2⟩ := ih hinv fun e he => hg e (by simp [he])
      exact ⟨col', cls', h1, by simpa using h2⟩

/-- The colours at the start. -/
theorem colInv_init {all : List ι} (hn : all.Nodup) : ColInv all [] (dupdate [] (all.zip (List.range all.length)))
    (dupdate [] ((List.range all.length).zip (all.map fun x => [x]))) := by
  have hlen : (all.zip (List.range all.length)).map Prod.fst = all := List.map_fst_zip (by simp)
  have gcol : ∀ x c, dget (dupdate [] (all.zip (List.range all.length))) x = some c ↔ all[c]? = some x := by
    intro x c
    have hnr : (((all.zip (List.range all.length)).reverse).map Prod.fst).Nodup := by
      rw [List.map_reverse, hlen, List.nodup_reverse]; exact hn
    rw [dget_dupdate, show dget ([] : List (ι × ℕ)) x = none from rfl, Option.or_none]
    constructor
    · intro h
      have := List.mem_reverse.1 (dget_mem h)
      obtain ⟨i, hi, he⟩ := List.getElem_of_mem this
      rw [List.getElem_zip, List.getElem_range] at he
      simp only [Prod.mk.injEq] at he
      obtain ⟨he1, rfl⟩ := he
      rw [List.getElem?_eq_getElem (by simpa using hi), he1]
    · intro h
      refine dget_of_mem hnr (List.mem_reverse.2 ?_)
      obtain ⟨hc, he⟩ := List.getElem?_eq_some_iff.1 h
      refine List.mem_iff_getElem.2 ⟨c, by simpa using hc, ?_⟩
      rw [List.getElem_zip, List.getElem_range, he]
  have hlen2 : ((List.range all.length).zip (all.map fun x => [x])).map Prod.fst = List.range all.length := List.map_fst_zip (by simp)
  have gcls : ∀ c l, dget (dupdate [] ((List.range all.length).zip (all.map fun x => [x]))) c = some l ↔ ∃ x, all[c]? = some x ∧ l = [x] := by
    intro c l
    have hnr : ((((List.range all.length).zip (all.map fun x => [x])).reverse).map Prod.fst).Nodup := by
      rw [List.map_reverse, hlen2, List.nodup_reverse]; exact List.nodup_range
    rw [dget_dupdate, show dget ([] : List (ℕ × List ι)) c = none from rfl, Option.or_none]
    constructor
    · intro h
      have := List.mem_reverse.1 (dget_mem h)
      obtain ⟨i, hi, he⟩ := List.getElem_of_mem this
      rw [List.getElem_zip, List.getElem_range, List.getElem_map] at he
      simp only [Prod.mk.injEq] at he
      obtain ⟨rfl, rfl⟩ := he
      exact ⟨_, List.getElem?_eq_getElem _, rfl⟩
    · rintro ⟨x, h, rfl⟩
      refine dget_of_mem hnr (List.mem_reverse.2 ?_)
      obtain ⟨hc, he⟩ := List.getElem?_eq_some_iff.1 h
      refine List.mem_iff_getElem.2 ⟨c, by simpa using hc, ?_⟩
      rw [List.getElem_zip, List.getElem_range, List.getElem_map, he]
  refine ⟨dupdate_nodup (by simp) _, ?_, ?_, ?_, ?_⟩
  · intro x hx
    obtain ⟨i, hi, rfl⟩ := List.getElem_of_mem hx
    exact ⟨i, (gcol _ _).2 (List.getElem?_eq_getElem hi)⟩
  · intro x c h
    rw [gcol] at h
    exact ⟨List.mem_of_getElem? h, [x], (gcls _ _).2 ⟨x, h, rfl⟩, by simp⟩
  · intro c l h
    obtain ⟨x, hx, rfl⟩ := (gcls c l).1 h
    refine ⟨by simp, ?_, ⟨x, [], rfl, hx⟩, ?_⟩
    · intro y hy; rw [List.mem_singleton.1 hy, gcol]; exact hx
    · intro y hy
      rw [List.mem_singleton.1 hy]
      obtain ⟨hc, he⟩ := List.getElem?_eq_some_iff.1 hx
      rw [← he, hn.idxOf_getElem]
  · intro f
    constructor
    · intro _ x y c hx hy
      rw [gcol] at hx hy
      rw [hx] at hy
      rw [Option.some.inj hy]
    · intro _ g hg; simp at hg

end TNCO
