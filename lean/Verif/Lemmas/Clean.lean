import Verif.Props.Tree
import Verif.Lemmas.FiniteWidth
import Mathlib.Data.List.GetD

/-!
Nothing outside the vectors is ever written, and no bit outside the bitsets is ever set: an
artefact of representing vectors by functions, needed to state equality of whole states.
-/

namespace TNCO
open PTree

theorem swapWithNN_out {T : Tree} (h : IsTree T) (d : ℕ) {p : ℕ} (hp : T.size ≤ p) :
    (T.swapWithNN d).nodes p = T.nodes p := by
  obtain ⟨t, ht⟩ := h
  have hl := ht.linked
  unfold Tree.swapWithNN
  split
  · rfl
  next hd =>
  push Not at hd
  split
  · rfl
  next B hB =>
  have hBs := (hl.parent d hd B hB).1
  split
  · rfl
  next A hA =>
  have hAs := (hl.parent B hBs A hA).1
  split
  · rfl
  next C hC =>
  have hCs : C < T.size := by
    split at hC
    · exact (hl.child1 A hAs C hC).1
    · exact (hl.child0 A hAs C hC).1
  simp only
  rw [Function.update_of_ne (by omega), Function.update_of_ne (by omega), Function.update_of_ne (by omega),
    Function.update_of_ne (by omega)]

structure CTree.Clean (c : CTree) : Prop where
  nodes_out : ∀ p, c.tree.size ≤ p → c.tree.nodes p = default
  inds_out : ∀ p, c.tree.size ≤ p → c.inds p = ∅
  inds_lt : ∀ p, c.inds p ⊆ Finset.range c.nInds

variable {σ P R W : Type}

theorem getCtreeNN_range (g : Prng σ P) {c : CTree} (h : IsTree c.tree) {dis : Bool} {s s' : σ} {posB A C D E : ℕ}
    (hB : posB < c.tree.size) (hnn : getCtreeNN g c dis s posB = (some (A, C, D, E), s')) :
    A < c.tree.size ∧ C < c.tree.size ∧ D < c.tree.size ∧ E < c.tree.size := by
  obtain ⟨t, ht⟩ := h
  have hl := ht.linked
  unfold getCtreeNN at hnn
  split at hnn
  · next posA p0 p1 h1 h2 h3 =>
    have hA := (hl.parent posB hB posA h1).1
    have h0 := (hl.child0 posB hB p0 h2).1
    have h1' := (hl.child1 posB hB p1 h3).1
    split at hnn
    · simp at hnn
    · next posC hC =>
      have hCs : posC < c.tree.size := by
        split at hC
        · exact (hl.child1 posA hA posC hC).1
        · exact (hl.child0 posA hA posC hC).1
      simp only at hnn
      split at hnn
      · split at hnn <;> (simp only [Prod.mk.injEq, Option.some.injEq] at hnn; omega)
      · split at hnn <;> (simp only [Prod.mk.injEq, Option.some.injEq] at hnn; omega)
  · simp at hnn

theorem hyperCache_sub (c : CTree) (p : ℕ) : hyperCache c p ⊆ c.inds p := by
  unfold hyperCache
  split
  · intro x hx; simp only [Finset.mem_inter] at hx; exact hx.1.1
  · simp

/-- The same for the caches. -/
structure InfOpt.Clean [Zero R] (o : InfOpt σ R) : Prop where
  ctree : o.ctree.Clean
  minc : o.minCtree.Clean
  part_out : ∀ p, o.ctree.tree.size ≤ p → o.cost.partialCost p = 0
  contr_out : ∀ p, o.ctree.tree.size ≤ p → o.cost.contractionCost p = 0
  hyper_out : ∀ p, o.ctree.tree.size ≤ p → o.hyper p = ∅
  hyper_lt : ∀ p, o.hyper p ⊆ Finset.range o.ctree.nInds

theorem visit_foldl_out [Zero R] [Add R] (m : CostModel R) (c : CTree) (l : List ℕ) (k : CostCache R) {p : ℕ}
    (hp : p ∉ l) : (l.foldl (CostCache.visit m c) k).partialCost p = k.partialCost p ∧
      (l.foldl (CostCache.visit m c) k).contractionCost p = k.contractionCost p := by
  induction l generalizing k with
  | nil => exact ⟨rfl, rfl⟩
  | cons q l ih =>
    simp only [List.mem_cons, not_or] at hp
    rw [List.foldl_cons]
    obtain ⟨h1, h2⟩ := ih (CostCache.visit m c k q) hp.2
    rw [h1, h2]
    unfold CostCache.visit
    split <;> simp [Function.update_of_ne hp.1]

theorem costCache_out [Zero R] [Add R] {m : CostModel R} {c : CTree} {k : CostCache R} (h : IsTree c.tree)
    (hk : CostCache.make c.fuel m c = some k) {p : ℕ} (hp : c.tree.size ≤ p) :
    k.partialCost p = 0 ∧ k.contractionCost p = 0 := by
  obtain ⟨t, ht⟩ := h
  unfold CostCache.make at hk
  rw [traverse_eq ht (fuel := c.fuel) (le_refl _)] at hk
  simp only [Option.map_some, Option.some.injEq] at hk
  subst hk
  exact visit_foldl_out m c _ _ fun hm => by have := (ht.mem p).1 hm; omega

theorem Clean.newB {c : CTree} (hc : c.Clean) {hy : ℕ → ISet} (hh : ∀ p, hy p ⊆ Finset.range c.nInds)
    (d e a b : ℕ) : (c.inds d).xor (c.inds e) ∪ hy a ∪ hy b ⊆ Finset.range c.nInds := by
  intro x hx
  simp only [ISet.xor, Finset.mem_union, Finset.mem_sdiff] at hx
  rcases hx with ((hx | hx) | hx) | hx
  · exact hc.inds_lt d hx.1
  · exact hc.inds_lt e hx.1
  · exact hh a hx
  · exact hh b hx

theorem Clean.move {c : CTree} (hc : c.Clean) (ht : IsTree c.tree) {B : ℕ} (hB : B < c.tree.size) {n : ISet}
    (hn : n ⊆ Finset.range c.nInds) (E : ℕ) :
    CTree.Clean { c with tree := c.tree.swapWithNN E, inds := Function.update c.inds B n } := by
  have hsz := (C06_swap_keeps_tree c.tree ht E).2
  refine ⟨fun p hp => ?_, fun p hp => ?_, fun p => ?_⟩
  · simp only [hsz] at hp ⊢
    rw [swapWithNN_out ht E hp]; exact hc.nodes_out p hp
  · simp only [hsz] at hp ⊢
    rw [Function.update_of_ne (by omega)]; exact hc.inds_out p hp
  · simp only
    by_cases h : p = B
    · subst h; rw [Function.update_self]; exact hn
    · rw [Function.update_of_ne h]; exact hc.inds_lt p

theorem upd2_out {α : Type} {f : ℕ → α} {n A B : ℕ} {x y z : α} (h : ∀ p, n ≤ p → f p = z) (hA : A < n) (hB : B < n)
    (p : ℕ) (hp : n ≤ p) : Function.update (Function.update f A x) B y p = z := by
  rw [Function.update_of_ne (by omega), Function.update_of_ne (by omega)]; exact h p hp

theorem upd2_lt {f : ℕ → ISet} {s : ISet} {A B : ℕ} {x y : ISet} (h : ∀ p, f p ⊆ s) (hx : x ⊆ s) (hy : y ⊆ s)
    (p : ℕ) : Function.update (Function.update f A x) B y p ⊆ s := by
  by_cases h1 : p = B
  · subst h1; rw [Function.update_self]; exact hy
  rw [Function.update_of_ne h1]
  by_cases h2 : p = A
  · subst h2; rw [Function.update_self]; exact hx
  rw [Function.update_of_ne h2]; exact h p

section
variable [AddCommGroup R] [LinearOrder R] [LinearOrder P] [AddCommGroup W] [LinearOrder W]

/-- Loop invariant. -/
structure Walk.Clean (w : Walk σ R) : Prop where
  clean : w.o.Clean
  tree : IsTree w.o.ctree.tree
  posB : w.posB < w.o.ctree.tree.size

theorem Walk.Clean.body {g : Prng σ P} {m : CostModel R} {prob : R → R → P} {w : Walk σ R} (h : w.Clean)
    {A C D E : ℕ} (hA : A < w.o.ctree.tree.size) :
    (Walk.body g m prob w A C D E).Clean := by
  have hn := Clean.newB h.clean.ctree h.clean.hyper_lt D C A w.posB
  unfold Walk.body
  simp only
  split
  · have hsz := C06_swap_keeps_tree w.o.ctree.tree h.tree E
    refine ⟨⟨Clean.move h.clean.ctree h.tree h.posB hn E, h.clean.minc, ?_, ?_, ?_, ?_⟩, hsz.1, ?_⟩
    · simp only [hsz.2]
      exact upd2_out h.clean.part_out h.posB hA
    · simp only [hsz.2]
      exact upd2_out h.clean.contr_out h.posB hA
    · simp only [hsz.2]
      exact upd2_out h.clean.hyper_out hA h.posB
    · simp only
      refine upd2_lt h.clean.hyper_lt ?_ ?_
      · exact (Finset.inter_subset_left.trans Finset.inter_subset_right).trans hn
      · exact (Finset.inter_subset_left.trans Finset.inter_subset_left).trans hn
    · simp only [hsz.2]; exact hA
  · refine ⟨⟨h.clean.ctree, h.clean.minc, ?_, h.clean.contr_out, h.clean.hyper_out, h.clean.hyper_lt⟩, h.tree, hA⟩
    exact upd2_out h.clean.part_out h.posB hA

theorem Walk.Clean.run {g : Prng σ P} {m : CostModel R} {prob : R → R → P} (fuel : ℕ) {w w' : Walk σ R} (h : w.Clean)
    (hr : Walk.run g m prob fuel w = some w') : w'.Clean := by
  induction fuel generalizing w with
  | zero => simp [Walk.run] at hr
  | succ n ih =>
    unfold Walk.run at hr
    split at hr
    · cases hr
      exact ⟨⟨h.clean.1, h.clean.2, h.clean.3, h.clean.4, h.clean.5, h.clean.6⟩, h.tree, h.posB⟩
    · next a c d e s hnn =>
      have hrange := getCtreeNN_range g h.tree h.posB hnn
      refine ih (Walk.Clean.body (w := { w with o := { w.o with prng := s } }) ?_ hrange.1) hr
      exact ⟨⟨h.clean.1, h.clean.2, h.clean.3, h.clean.4, h.clean.5, h.clean.6⟩, h.tree, h.posB⟩

theorem nLeaves_lt {T : Tree} (h : IsTree T) (n : ℕ) : n % T.nLeaves < T.size := by
  obtain ⟨t, ht⟩ := h
  have := ht.linked.size
  have h2 := ht.linked.pos
  have : 0 < T.nLeaves := by unfold Tree.nLeaves at *; omega
  have := Nat.mod_lt n this
  omega

theorem InfOpt.Clean.update {g : Prng σ P} {m : CostModel R} {prob : R → R → P} {o o' : InfOpt σ R} (h : o.Clean)
    (ht : IsTree o.ctree.tree) (hu : o.update g m prob = some o') : o'.Clean ∧ IsTree o'.ctree.tree := by
  unfold InfOpt.update at hu
  simp only at hu
  split at hu
  · cases hu; exact ⟨⟨h.1, h.2, h.3, h.4, h.5, h.6⟩, ht⟩
  · next B hB =>
    have hBs : B < o.ctree.tree.size := by
      obtain ⟨t, hw⟩ := id ht
      exact (hw.linked.parent _ (nLeaves_lt ht _) B hB).1
    simp only [Option.map_eq_some_iff] at hu
    obtain ⟨w, hw, rfl⟩ := hu
    have hc := Walk.Clean.run (w := ⟨{ o with prng := (g.next o.prng).2 }, B, o.totalCost⟩) _
      ⟨⟨h.1, h.2, h.3, h.4, h.5, h.6⟩, ht, hBs⟩ hw
    unfold InfOpt.updateMin
    split
    · exact ⟨⟨hc.clean.1, hc.clean.1, hc.clean.3, hc.clean.4, hc.clean.5, hc.clean.6⟩, hc.tree⟩
    · exact ⟨hc.clean, hc.tree⟩

theorem InfOpt.Clean.run {g : Prng σ P} {m : CostModel R} {o o' : InfOpt σ R} (h : o.Clean)
    (ht : IsTree o.ctree.tree) (ps : List (R → R → P)) (hu : o.run g m ps = some o') :
    o'.Clean ∧ IsTree o'.ctree.tree := by
  induction ps generalizing o with
  | nil => cases hu; exact ⟨h, ht⟩
  | cons p ps ih =>
    unfold InfOpt.run at hu
    rw [Option.bind_eq_some_iff] at hu
    obtain ⟨o1, h1, h2⟩ := hu
    obtain ⟨h3, h4⟩ := h.update ht h1
    exact ih h3 h4 h2

/-! ## Finite width -/

structure FwOpt.Clean (wm : WidthModel W) (o : FwOpt σ R W) : Prop where
  inf : o.inf.Clean
  width_out : ∀ p, o.inf.ctree.tree.size ≤ p → o.width p = wm.width ∅
  slices_lt : o.slices ⊆ Finset.range o.inf.ctree.nInds
  minSlices_lt : o.minSlices ⊆ Finset.range o.inf.ctree.nInds

structure FwWalk.Clean (wm : WidthModel W) (w : FwWalk σ R W) : Prop where
  clean : w.o.Clean wm
  tree : IsTree w.o.inf.ctree.tree
  posB : w.posB < w.o.inf.ctree.tree.size

theorem newSliceLoop_sub {g : FwPrng σ P} {wm : WidthModel W} {s : Finset ℕ} (k : ℕ) {l : List ℕ} {sl sl' : ISet}
    {w w' : W} {st st' : σ} (hl : ∀ x ∈ l, x ∈ s) (hs : sl ⊆ s)
    (h : newSliceLoop g wm k l sl w st = .ok (sl', w', st')) : sl' ⊆ s := by
  induction k generalizing l sl w st with
  | zero =>
    unfold newSliceLoop at h; simp only [Except.ok.injEq, Prod.mk.injEq] at h; rw [← h.1]; exact hs
  | succ k ih =>
    unfold newSliceLoop at h
    split at h
    · simp only at h
      split at h
      · cases h
      · next hne =>
        have hmem : l.getD ((g.next st).1 % l.length) 0 ∈ l := by
          have := Nat.mod_lt (g.next st).1 (Nat.pos_of_ne_zero hne)
          rw [List.getD_eq_getElem _ _ this]; exact List.getElem_mem _
        refine ih ?_ ?_ h
        · intro x hx
          rcases List.mem_or_eq_of_mem_set (List.mem_of_mem_take hx) with hx | hx
          · exact hl x hx
          · subst hx
            have : l.length - 1 < l.length := by omega
            rw [List.getD_eq_getElem _ _ this]; exact hl _ (List.getElem_mem _)
        · exact Finset.insert_subset (hl _ hmem) hs
    · simp only [Except.ok.injEq, Prod.mk.injEq] at h; rw [← h.1]; exact hs

theorem mem_positions {xs : ISet} {x : ℕ} (h : x ∈ xs.positions) : x ∈ xs := by
  unfold ISet.positions at h; simpa using (List.mem_filter.1 h).2

theorem mem_minus {xs : ISet} {sk : Option ISet} {x : ℕ} (h : x ∈ xs.minus? sk) : x ∈ xs := by
  cases sk with
  | none => exact h
  | some k => exact (Finset.mem_sdiff.1 h).1

theorem propagate_clean {o : InfOpt σ R} {s : σ} (h : o.Clean) {A B C D E : ℕ} (hA : A < o.ctree.tree.size)
    (hB : B < o.ctree.tree.size) :
    InfOpt.Clean { o with prng := s, cost := propagate o.cost A B C D E } :=
  ⟨h.1, h.2, upd2_out h.part_out hB hA, h.contr_out, h.5, h.6⟩

theorem FwWalk.Clean.body {g : FwPrng σ P} {m : CostModel R} {wm : WidthModel W} {prob : R → R → P} {w w' : FwWalk σ R W}
    (h : w.Clean wm) {A C D E : ℕ} (hA : A < w.o.inf.ctree.tree.size)
    (hb : FwWalk.body g m wm prob w A C D E = .ok w') : w'.Clean wm := by
  have hn := Clean.newB h.clean.inf.ctree h.clean.inf.hyper_lt D C A w.posB
  have hsz := C06_swap_keeps_tree w.o.inf.ctree.tree h.tree E
  have hmove := Clean.move h.clean.inf.ctree h.tree h.posB hn E
  have hhy1 := upd2_out (x := w.o.inf.ctree.inds A ∩ ((w.o.inf.ctree.inds D).xor (w.o.inf.ctree.inds C) ∪
    w.o.inf.hyper A ∪ w.o.inf.hyper w.posB) ∩ w.o.inf.ctree.inds E)
    (y := ((w.o.inf.ctree.inds D).xor (w.o.inf.ctree.inds C) ∪ w.o.inf.hyper A ∪ w.o.inf.hyper w.posB) ∩
      w.o.inf.ctree.inds D ∩ w.o.inf.ctree.inds C) h.clean.inf.hyper_out hA h.posB
  have hhy2 := upd2_lt (A := A) (B := w.posB) h.clean.inf.hyper_lt
    ((Finset.inter_subset_left.trans Finset.inter_subset_right).trans hn :
      w.o.inf.ctree.inds A ∩ _ ∩ w.o.inf.ctree.inds E ⊆ _)
    ((Finset.inter_subset_left.trans Finset.inter_subset_left).trans hn :
      _ ∩ w.o.inf.ctree.inds D ∩ w.o.inf.ctree.inds C ⊆ _)
  have hwd : ∀ x : W, ∀ p, w.o.inf.ctree.tree.size ≤ p → Function.update w.o.width w.posB x p = wm.width ∅ := by
    intro x p hp
    have := h.posB
    rw [Function.update_of_ne (by omega)]; exact h.clean.width_out p hp
  have hrej : ∀ s : σ, ∀ k, FwWalk.Clean wm
      ⟨{ w.o with inf := { w.o.inf with prng := s, cost := propagate w.o.inf.cost A w.posB C D E } }, A, k⟩ := fun s k =>
    ⟨⟨propagate_clean h.clean.inf hA h.posB, h.clean.2, h.clean.3, h.clean.4⟩, h.tree, hA⟩
  unfold FwWalk.body at hb
  simp only at hb
  split at hb
  · split at hb
    · cases hb
      refine ⟨⟨⟨hmove, h.clean.inf.minc, ?_, ?_, ?_, ?_⟩, ?_, h.clean.slices_lt, h.clean.minSlices_lt⟩, hsz.1, ?_⟩
      · simp only [hsz.2, propagate]; exact upd2_out h.clean.inf.part_out h.posB hA
      · simp only [hsz.2, propagate]; exact upd2_out h.clean.inf.contr_out h.posB hA
      · simp only [hsz.2]; exact hhy1
      · exact hhy2
      · simp only [hsz.2]; exact hwd _
      · simp only [hsz.2]; exact hA
    · cases hb; exact hrej _ _
  · split at hb
    · split at hb
      · cases hb
      · next newSlices nw s hns =>
        have hsl : newSlices ⊆ Finset.range w.o.inf.ctree.nInds := by
          refine newSliceLoop_sub _ ?_ h.clean.slices_lt hns
          intro x hx
          exact hn (Finset.mem_sdiff.1 (mem_minus (mem_positions hx))).1
        split at hb
        · split at hb
          · cases hb
          · next k hk =>
            have hko := fun p hp => costCache_out (c := { w.o.inf.ctree with
              tree := w.o.inf.ctree.tree.swapWithNN E, inds := _ }) hsz.1 hk (p := p) hp
            split at hb
            · cases hb
              refine ⟨⟨⟨hmove, h.clean.inf.minc, fun p hp => (hko p hp).1, fun p hp => (hko p hp).2, ?_, hhy2⟩, ?_, hsl,
                h.clean.minSlices_lt⟩, hsz.1, ?_⟩
              · simp only [hsz.2]; exact hhy1
              · simp only [hsz.2]; exact hwd _
              · simp only [hsz.2]; exact hA
            · cases hb
              have hsz2 := C06_swap_keeps_tree _ hsz.1 C
              refine ⟨⟨⟨Clean.move hmove hsz.1 (by rw [hsz.2]; exact h.posB) (h.clean.inf.ctree.inds_lt _) C,
                h.clean.inf.minc, ?_, ?_, ?_, h.clean.inf.hyper_lt⟩, ?_, h.clean.slices_lt, h.clean.minSlices_lt⟩, hsz2.1, ?_⟩
              · simp only [hsz2.2, hsz.2, propagate]; exact upd2_out h.clean.inf.part_out h.posB hA
              · simp only [hsz2.2, hsz.2, propagate]; exact h.clean.inf.contr_out
              · simp only [hsz2.2, hsz.2]; exact h.clean.inf.hyper_out
              · simp only [hsz2.2, hsz.2]; exact h.clean.width_out
              · simp only [hsz2.2, hsz.2]; exact hA
        · cases hb; exact hrej _ _
    · cases hb; exact hrej _ _

theorem FwWalk.Clean.run {g : FwPrng σ P} {m : CostModel R} {wm : WidthModel W} {prob : R → R → P} (fuel : ℕ)
    {w w' : FwWalk σ R W} (h : w.Clean wm) (hr : FwWalk.run g m wm prob fuel w = .ok w') : w'.Clean wm := by
  induction fuel generalizing w with
  | zero => simp [FwWalk.run] at hr
  | succ n ih =>
    unfold FwWalk.run at hr
    have hh : ∀ s : σ, FwWalk.Clean wm { w with o := { w.o with inf := { w.o.inf with prng := s } } } := fun s =>
      ⟨⟨⟨h.clean.inf.1, h.clean.inf.2, h.clean.inf.3, h.clean.inf.4, h.clean.inf.5, h.clean.inf.6⟩, h.clean.2,
        h.clean.3, h.clean.4⟩, h.tree, h.posB⟩
    split at hr
    · cases hr; exact hh _
    · next a c d e s hnn =>
      have hrange := getCtreeNN_range g.toPrng h.tree h.posB hnn
      split at hr
      · cases hr
      · next w1 hw1 => exact ih (FwWalk.Clean.body (hh s) hrange.1 hw1) hr

theorem sliceLoop_sub {wm : WidthModel W} {s : Finset ℕ} {l : List ℕ} {sl xs : ISet} {w : W} (hl : ∀ x ∈ l, x ∈ s)
    (hs : sl ⊆ s) : sliceLoop wm l sl xs w ⊆ s := by
  induction l generalizing sl xs w with
  | nil => exact hs
  | cons x l ih =>
    unfold sliceLoop
    simp only
    have h1 := Finset.insert_subset (hl x (by simp)) hs
    split
    · exact h1
    · exact ih (fun y hy => hl y (by simp [hy])) h1

theorem getSlices_sub {g : FwPrng σ P} {wm : WidthModel W} {c : CTree} {skip : Option ISet} {width : ℕ → W} {s s' : σ}
    {sl : ISet} (hc : c.Clean) (h : getSlices g wm c skip width s = some (sl, s')) : sl ⊆ Finset.range c.nInds := by
  unfold getSlices at h
  simp only [Option.map_eq_some_iff] at h
  obtain ⟨l, -, h⟩ := h
  suffices ∀ st : ISet × σ, st.1 ⊆ Finset.range c.nInds →
      (l.foldl (sliceVisit g wm c skip width) st).1 ⊆ Finset.range c.nInds by
    have := this (∅, s) (by simp)
    rw [h] at this; exact this
  clear h
  induction l with
  | nil => exact fun _ h => h
  | cons p l ih =>
    intro st hst
    rw [List.foldl_cons]
    apply ih
    unfold sliceVisit
    split
    · simp only
      split
      · refine sliceLoop_sub ?_ hst
        intro x hx
        unfold sliceSort at hx
        rw [List.mem_insertionSort] at hx
        have := (g.shuffle_perm _ _).mem_iff.1 hx
        exact hc.inds_lt p (Finset.mem_sdiff.1 (mem_minus (mem_positions this))).1
      · exact hst
    · exact hst

theorem FwOpt.Clean.update {g : FwPrng σ P} {m : CostModel R} {wm : WidthModel W} {prob : R → R → P} {u : Bool}
    {o o' : FwOpt σ R W} (h : o.Clean wm) (ht : IsTree o.inf.ctree.tree) (hu : o.update g m wm prob u = .ok o') :
    o'.Clean wm ∧ IsTree o'.inf.ctree.tree := by
  unfold FwOpt.update at hu
  simp only at hu
  have hh : ∀ s : σ, FwOpt.Clean wm { o with inf := { o.inf with prng := s } } := fun s =>
    ⟨⟨h.inf.1, h.inf.2, h.inf.3, h.inf.4, h.inf.5, h.inf.6⟩, h.2, h.3, h.4⟩
  split at hu
  · cases hu; exact ⟨hh _, ht⟩
  · next B hB =>
    have hBs : B < o.inf.ctree.tree.size := by
      obtain ⟨t, hw⟩ := id ht
      exact (hw.linked.parent _ (nLeaves_lt ht _) B hB).1
    split at hu
    · cases hu
    · next w hw =>
      have hc := FwWalk.Clean.run _ ⟨hh _, ht, hBs⟩ hw
      split at hu
      · cases hu
      · next o1 ho1 =>
        cases hu
        have h1 : o1.Clean wm ∧ IsTree o1.inf.ctree.tree := by
          unfold FwOpt.updateSlices at ho1
          split at ho1
          · split at ho1
            · cases ho1
            · next ns s hns =>
              have hsub := getSlices_sub hc.clean.inf.ctree hns
              split at ho1
              · cases ho1
              · next k hk =>
                have hko := fun p hp => costCache_out hc.tree hk (p := p) hp
                split at ho1
                · cases ho1
                  exact ⟨⟨⟨hc.clean.inf.1, hc.clean.inf.2, fun p hp => (hko p hp).1, fun p hp => (hko p hp).2,
                    hc.clean.inf.5, hc.clean.inf.6⟩, hc.clean.2, hsub, hc.clean.4⟩, hc.tree⟩
                · cases ho1
                  exact ⟨⟨⟨hc.clean.inf.1, hc.clean.inf.2, hc.clean.inf.3, hc.clean.inf.4, hc.clean.inf.5,
                    hc.clean.inf.6⟩, hc.clean.2, hc.clean.3, hc.clean.4⟩, hc.tree⟩
          · cases ho1; exact ⟨hc.clean, hc.tree⟩
        unfold FwOpt.updateMin
        split
        · exact ⟨⟨⟨h1.1.inf.1, h1.1.inf.1, h1.1.inf.3, h1.1.inf.4, h1.1.inf.5, h1.1.inf.6⟩, h1.1.2, h1.1.3, h1.1.3⟩, h1.2⟩
        · exact h1

theorem FwOpt.Clean.run {g : FwPrng σ P} {m : CostModel R} {wm : WidthModel W} {o o' : FwOpt σ R W} (h : o.Clean wm)
    (ht : IsTree o.inf.ctree.tree) (ps : List ((R → R → P) × Bool)) (hu : o.run g m wm ps = .ok o') :
    o'.Clean wm ∧ IsTree o'.inf.ctree.tree := by
  induction ps generalizing o with
  | nil => cases hu; exact ⟨h, ht⟩
  | cons p ps ih =>
    obtain ⟨p, u⟩ := p
    unfold FwOpt.run at hu
    split at hu
    · cases hu
    · next o1 h1 =>
      obtain ⟨h3, h4⟩ := h.update ht h1
      exact ih h3 h4 hu

end
end TNCO
