import Verif.Lemmas.PTree
import Mathlib.Tactic.Push

/-! Helper lemmas on `swap_with_nn`. -/

namespace TNCO
open PTree

/-- The effect of `swap_with_nn(E)` on the vector when `A`, `B`, `C`, `D`, `E`
are linked as in the diagram of tree.hpp:145-153 (with `E` moved). -/
theorem swapWithNN_local {T : Tree} {A B C D E : ℕ} {o o' : Bool} {pa : Option ℕ}
    (hE : E < T.size) (hEp : (T.nodes E).parent = some B)
    (hB : T.nodes B = mkNode o' D E (some A)) (hA : T.nodes A = mkNode o B C pa)
    (hnd : [A, B, C, D, E].Nodup) :
    T.swapWithNN E = ⟨T.size,
      Function.update (Function.update (Function.update (Function.update T.nodes
        A (mkNode o B E pa)) B (mkNode o' D C (some A)))
        C { T.nodes C with parent := some B }) E { T.nodes E with parent := some A }⟩ := by
  simp only [List.nodup_cons, List.mem_cons, not_or, List.not_mem_nil,
    not_false_eq_true] at hnd
  obtain ⟨⟨hAB, hAC, hAD, hAE, -⟩, ⟨hBC, hBD, hBE, -⟩, ⟨hCD, hCE, -⟩, ⟨hDE, -⟩, -⟩ := hnd
  have hBp : (T.nodes B).parent = some A := by rw [hB]; cases o' <;> rfl
  have hC : (if (T.nodes A).c0 == some B then (T.nodes A).c1 else (T.nodes A).c0) = some C := by
    rw [hA]; cases o
    · have : ¬ (C = B) := fun h => hBC h.symm
      simp [mkNode, this]
    · simp [mkNode]
  have h1 : Tree.replaceChild (T.nodes A) C E = mkNode o B E pa := by
    rw [hA]; cases o <;> simp [mkNode, Tree.replaceChild, hBC]
  have h2 : Tree.replaceChild (T.nodes B) E C = mkNode o' D C (some A) := by
    rw [hB]; cases o' <;> simp [mkNode, Tree.replaceChild, hDE]
  unfold Tree.swapWithNN
  rw [if_neg (by omega), hEp]; simp only []
  rw [hBp]; simp only []
  rw [hC]; simp only []
  rw [h1]
  have hAB' : B ≠ A := fun h => hAB h.symm
  have hAC' : C ≠ A := fun h => hAC h.symm
  have hBC' : C ≠ B := fun h => hBC h.symm
  have hAE' : E ≠ A := fun h => hAE h.symm
  have hBE' : E ≠ B := fun h => hBE h.symm
  have hCE' : E ≠ C := fun h => hCE h.symm
  simp only [Function.update_of_ne hAB', h2, Function.update_of_ne hBC',
    Function.update_of_ne hAC', Function.update_of_ne hAE', Function.update_of_ne hBE',
    Function.update_of_ne hCE']

theorem fork_flip (o : Bool) (p : ℕ) (l r : PTree) : fork o p l r = fork (!o) p r l := by
  cases o <;> simp [fork]

/-- The positions of the five trees involved in a rotation. -/
theorem rot_perm (K : Ctx) (o o' : Bool) (A B : ℕ) (d e c : PTree) :
    (K.plug (fork o A (fork o' B d e) c)).postorder.Perm
      (A :: B :: (d.postorder ++ e.postorder ++ c.postorder ++ K.poss)) := by
  refine (K.postorder_plug _).trans ?_
  refine ((postorder_fork _ _ _ _).append_right _).trans ?_
  refine List.Perm.cons _ ?_
  refine (((postorder_fork _ _ _ _).append_right _).append_right _).trans ?_
  simp

theorem rot_leaves_perm (K : Ctx) (o o' : Bool) (A B : ℕ) (d e c : PTree) :
    (K.plug (fork o A (fork o' B d e) c)).leaves.Perm
      (d.leaves ++ e.leaves ++ c.leaves ++ K.lvs) := by
  refine (K.leaves_plug _).trans ?_
  refine ((leaves_fork _ _ _ _).append_right _).trans ?_
  refine (((leaves_fork _ _ _ _).append_right _).append_right _).trans ?_
  simp

/-- Distinctness facts extracted from a duplicate-free rotation neighbourhood. -/
structure RotDistinct (K : Ctx) (A B : ℕ) (d e c : PTree) : Prop where
  nd : (A :: B :: (d.postorder ++ e.postorder ++ c.postorder ++ K.poss)).Nodup

namespace RotDistinct
variable {K : Ctx} {A B : ℕ} {d e c : PTree}

theorem five (h : RotDistinct K A B d e c) : [A, B, c.root, d.root, e.root].Nodup := by
  have h := h.nd
  have hd := d.root_mem; have he := e.root_mem; have hc := c.root_mem
  simp only [List.nodup_cons, List.mem_cons, List.mem_append, not_or, List.nodup_append,
    List.not_mem_nil, not_false_eq_true, List.nodup_nil, and_true] at h ⊢
  obtain ⟨⟨hAB, ⟨⟨hAd, hAe⟩, hAc⟩, hAK⟩, ⟨⟨⟨hBd, hBe⟩, hBc⟩, hBK⟩, ⟨⟨hdn, hen, hde⟩, hcn, hdec⟩, hKn, hK⟩ := h
  refine ⟨⟨hAB, ?_, ?_, ?_⟩, ⟨?_, ?_, ?_⟩, ⟨?_, ?_⟩, ?_⟩
  · rintro rfl; exact hAc hc
  · rintro rfl; exact hAd hd
  · rintro rfl; exact hAe he
  · rintro rfl; exact hBc hc
  · rintro rfl; exact hBd hd
  · rintro rfl; exact hBe he
  · intro hh; exact hdec _ (Or.inl hd) _ hc hh.symm
  · intro hh; exact hdec _ (Or.inr he) _ hc hh.symm
  · intro hh; exact hde _ hd _ he hh

end RotDistinct

/-- `swap_with_nn` performs a rotation of the encoded tree. -/
theorem encodes_swap {T : Tree} {K : Ctx} {o o' : Bool} {A B : ℕ} {d e c : PTree}
    (hd : RotDistinct K A B d e c) (hE : e.root < T.size)
    (henc : (K.plug (fork o A (fork o' B d e) c)).Encodes T.nodes none) :
    (K.plug (fork o A (fork o' B d c) e)).Encodes (T.swapWithNN e.root).nodes none ∧
    (T.swapWithNN e.root).size = T.size := by
  have h5 := hd.five
  rw [Ctx.encodes_plug, encodes_fork, encodes_fork] at henc
  simp only [root_fork] at henc
  obtain ⟨hK, hA, ⟨hB, hde, hee⟩, hce⟩ := henc
  rw [swapWithNN_local hE (encodes_root_parent hee) hB hA h5]
  refine ⟨?_, rfl⟩
  simp only
  rw [Ctx.encodes_plug, encodes_fork, encodes_fork]
  simp only [root_fork]
  have hnd := hd.nd
  simp only [List.nodup_cons, List.mem_cons, List.mem_append, not_or, List.nodup_append,
    List.not_mem_nil, not_false_eq_true, List.nodup_nil, and_true] at h5 hnd
  obtain ⟨⟨hAB, hAC, hAD, hAE⟩, ⟨hBC, hBD, hBE⟩, ⟨hCD, hCE⟩, hDE⟩ := h5
  obtain ⟨⟨-, ⟨⟨hAd, hAe⟩, hAc⟩, hAK⟩, ⟨⟨⟨hBd, hBe⟩, hBc⟩, hBK⟩, ⟨⟨hdn, hen, hde'⟩, hcn, hdec⟩, hKn, hK'⟩ := hnd
  have upd : ∀ q, q ≠ A → q ≠ B → q ≠ c.root → q ≠ e.root → ∀ a b c' e',
      Function.update (Function.update (Function.update (Function.update T.nodes A a) B b)
        c.root c') e.root e' q = T.nodes q := by
    intro q h1 h2 h3 h4 a b c' e'
    rw [Function.update_of_ne h4, Function.update_of_ne h3, Function.update_of_ne h2,
      Function.update_of_ne h1]
  refine ⟨Ctx.enc_congr ?_ hK, ?_, ⟨?_, encodes_congr ?_ hde, ?_⟩, ?_⟩
  · intro q hq
    refine upd q ?_ ?_ ?_ ?_ _ _ _ _
    · rintro rfl; exact hAK hq
    · rintro rfl; exact hBK hq
    · intro hh; exact hK' _ (Or.inr (hh ▸ c.root_mem)) _ hq rfl
    · intro hh; exact hK' _ (Or.inl (Or.inr (hh ▸ e.root_mem))) _ hq rfl
  · rw [Function.update_of_ne hAE, Function.update_of_ne hAC, Function.update_of_ne hAB,
      Function.update_self]
  · rw [Function.update_of_ne hBE, Function.update_of_ne hBC, Function.update_self]
  · intro q hq
    refine upd q ?_ ?_ ?_ ?_ _ _ _ _
    · rintro rfl; exact hAd hq
    · rintro rfl; exact hBd hq
    · intro hh; exact hdec _ (Or.inl hq) _ (hh ▸ c.root_mem) rfl
    · intro hh; exact hde' _ hq _ (hh ▸ e.root_mem) rfl
  · refine encodes_reparent hcn ?_ ?_ hce
    · rw [Function.update_of_ne hCE, Function.update_self]
    · intro q hq hqr
      refine upd q ?_ ?_ hqr ?_ _ _ _ _
      · rintro rfl; exact hAc hq
      · rintro rfl; exact hBc hq
      · intro hh; exact hdec _ (Or.inr (hh ▸ e.root_mem)) _ hq rfl
  · refine encodes_reparent hen ?_ ?_ hee
    · rw [Function.update_self]
    · intro q hq hqr
      refine upd q ?_ ?_ ?_ hqr _ _ _ _
      · rintro rfl; exact hAe hq
      · rintro rfl; exact hBe hq
      · intro hh; exact hdec _ (Or.inr hq) _ (hh ▸ c.root_mem) rfl

/-- Rotation preserves well-formedness. -/
theorem wellFormed_swap {T : Tree} {K : Ctx} {o o' : Bool} {A B : ℕ} {d e c : PTree}
    (h : WellFormed T (K.plug (fork o A (fork o' B d e) c))) :
    WellFormed (T.swapWithNN e.root) (K.plug (fork o A (fork o' B d c) e)) := by
  have hp := rot_perm K o o' A B d e c
  have hd : RotDistinct K A B d e c := ⟨hp.nodup_iff.1 h.nodup⟩
  have hE : e.root < T.size := by
    rw [← h.mem, hp.mem_iff]
    simp [e.root_mem]
  obtain ⟨henc, hsz⟩ := encodes_swap hd hE h.enc
  have hp' : (K.plug (fork o A (fork o' B d c) e)).postorder.Perm
      (K.plug (fork o A (fork o' B d e) c)).postorder := by
    refine (rot_perm K o o' A B d c e).trans (List.Perm.trans ?_ hp.symm)
    rw [List.perm_iff_count]; intro a
    simp only [List.count_append, List.count_cons]; omega
  have hl' : (K.plug (fork o A (fork o' B d c) e)).leaves.Perm
      (K.plug (fork o A (fork o' B d e) c)).leaves := by
    refine (rot_leaves_perm K o o' A B d c e).trans
      (List.Perm.trans ?_ (rot_leaves_perm K o o' A B d e c).symm)
    rw [List.perm_iff_count]; intro a
    simp only [List.count_append]; omega
  refine ⟨henc, hp'.nodup_iff.2 h.nodup, ?_, ?_, ?_⟩
  · intro p; rw [hp'.mem_iff, hsz]; exact h.mem p
  · rw [hsz, ← h.root]; exact K.root_plug_congr (by simp)
  · intro p; rw [hl'.mem_iff, hsz]; exact h.leaves p

/-- A node that has a grandparent sits in a rotation neighbourhood. -/
theorem exists_rot {T : Tree} {t : PTree} (h : WellFormed T t) {E B A : ℕ} (hE : E < T.size)
    (hEp : (T.nodes E).parent = some B) (hBp : (T.nodes B).parent = some A) :
    ∃ K o o' d e c, t = Ctx.plug K (fork o A (fork o' B d e) c) ∧ e.root = E := by
  obtain ⟨K, s, rfl, rfl⟩ := exists_plug ((h.mem E).2 hE)
  have henc := h.enc
  rw [Ctx.encodes_plug] at henc
  have hpar := encodes_root_parent henc.2
  rw [hEp] at hpar
  cases K with
  | top => simp [Ctx.par] at hpar
  | frame o' p d K =>
    simp only [Ctx.par, Option.some.injEq] at hpar
    subst hpar
    obtain ⟨⟨hB, hd, hK⟩, -⟩ := henc
    have : (T.nodes B).parent = K.par := by rw [hB]; cases o' <;> rfl
    rw [hBp] at this
    cases K with
    | top => simp [Ctx.par] at this
    | frame o q c K =>
      simp only [Ctx.par, Option.some.injEq] at this
      subst this
      exact ⟨K, o, !o', d, s, c, by simp [Ctx.plug, fork_flip o' B s d], rfl⟩

end TNCO
