import Verif.Lemmas.ReachTree
import Verif.Lemmas.BalanceWalk
import Verif.Lemmas.AnnealNet

/-! Helper lemmas: an iteration of the loop whose exchange is accepted. -/

namespace TNCO
open PTree

variable {σ τ : Type}

theorem Ctx.plug_inj (K : Ctx) {s s' : PTree} (h : K.plug s = K.plug s') : s = s' := by
  induction K generalizing s s' with
  | top => exact h
  | frame o p c K ih =>
    have := ih h
    cases o
    · simp only [fork, Bool.false_eq_true, if_false, node.injEq] at this; exact this.2.2
    · simp only [fork, if_true, node.injEq] at this; exact this.2.1

/-- Two tensors may be exchanged next to each other if the check is disabled or they share an index. -/
def adjOf (dis : Bool) (lf : ℕ → ISet) (a b : ℕ) : Prop := dis = true ∨ (lf a ∩ lf b).Nonempty

theorem adjOf_symm (dis : Bool) (lf : ℕ → ISet) (a b : ℕ) (h : adjOf dis lf a b) : adjOf dis lf b a := by
  unfold adjOf at *
  rwa [Finset.inter_comm]

/-- The state of the loop at an inner position of a tree with exact index sets. -/
structure LiveAt (m : CostModel ℝ) (out : ISet) (dis : Bool) (lf : ℕ → ISet) (N : ℕ) (w : Walk σ ℝ) (K : Ctx) (s : PTree) :
    Prop where
  inv : WInv m (some out) (!dis) w K s
  shape : ∃ ob l r, s = fork ob w.posB l r
  dis : w.o.disableShared = dis
  size : w.o.ctree.tree.size = N
  leafs : ∀ p < w.o.ctree.tree.nLeaves, w.o.ctree.inds p = lf p

/-- The optimizer between two updates. -/
structure Live (m : CostModel ℝ) (out : ISet) (dis : Bool) (lf : ℕ → ISet) (N : ℕ) (o : InfOpt σ ℝ) (t : PTree) : Prop where
  inv : OInv m (some out) (!dis) o t
  dis : o.disableShared = dis
  size : o.ctree.tree.size = N
  leafs : ∀ p < o.ctree.tree.nLeaves, o.ctree.inds p = lf p

variable {m : CostModel ℝ} {out : ISet} {dis : Bool} {lf : ℕ → ISet} {N : ℕ} {w : Walk σ ℝ} {K : Ctx} {s : PTree}

theorem LiveAt.withPrng (h : LiveAt m out dis lf N w K s) (x : τ) : LiveAt m out dis lf N (w.withPrng x) K s :=
  ⟨h.inv.withPrng x, h.shape, h.dis, h.size, h.leafs⟩

theorem WInv.leafs_iff (h : WInv m (some out) (!dis) w K s) (hl : ∀ p < w.o.ctree.tree.nLeaves, w.o.ctree.inds p = lf p) :
    ∀ p ∈ (K.plug s).leaves, w.o.ctree.inds p = lf p := by
  intro p hp
  exact hl p ((h.wf.leaves p).1 hp)

/-- Subtrees with leaves that share an index share an index. -/
theorem At.meets {o o' : Bool} {A : ℕ} {c d e : PTree} (h : At m (some out) (!dis) w o A c K o' d e)
    (hl : ∀ p < w.o.ctree.tree.nLeaves, w.o.ctree.inds p = lf p) (hm : Meets (adjOf dis lf) d c) :
    dis = true ∨ (w.o.ctree.inds d.root ∩ w.o.ctree.inds c.root).Nonempty := by
  obtain ⟨a, ha, b, hb, hd | ⟨i, hi⟩⟩ := hm
  · exact Or.inl hd
  · right
    have hs := h.sem out rfl
    rw [Ctx.sem_plug] at hs
    have hs1 := hs.1
    have hs2 := hs.2
    simp only [Ctx.Sem] at hs1
    rw [PTree.sem_fork] at hs2
    simp only [Ctx.ext] at hs2
    have rd := PTree.sem_root hs2.2.1
    have rc := PTree.sem_root hs1.2.1
    have hall := WInv.leafs_iff h hl
    have hperm := (rot_leaves_perm K o o' A w.posB d e c)
    have ha' : w.o.ctree.inds a = lf a := hall a (hperm.mem_iff.2 (by simp [ha]))
    have hb' : w.o.ctree.inds b = lf b := hall b (hperm.mem_iff.2 (by simp [hb]))
    rw [← ha', ← hb', Finset.mem_inter] at hi
    have id : i ∈ d.L w.o.ctree.inds := mem_leafInds.2 ⟨a, ha, hi.1⟩
    have ic : i ∈ c.L w.o.ctree.inds := mem_leafInds.2 ⟨b, hb, hi.2⟩
    refine ⟨i, ?_⟩
    rw [rd, rc, L_fork]
    simp only [Finset.mem_inter, Finset.mem_union]
    exact ⟨⟨id, Or.inl (Or.inr ic)⟩, ⟨ic, Or.inr (Or.inl id)⟩⟩

theorem exists_coin (dis o' iD iE : Bool) (h : dis = true ∨ iD = true) : ∃ n < 2, staysD dis o' iD iE n = true := by
  cases dis <;> cases iD <;> cases iE <;> cases o' <;> simp at h <;>
    first
    | exact ⟨0, by decide, by decide⟩
    | exact ⟨1, by decide, by decide⟩

theorem body_total {o o' : Bool} {A : ℕ} {c d e : PTree} {out? : Option ISet} {sh : Bool} (h : At m out? sh w o A c K o' d e)
    (prob : ℝ → ℝ → ℝ) (n : ℕ) {u : ℝ} (hu : u ≤ prob (candDelta m w A w.posB c.root d.root e.root) w.total) :
    (Walk.body drawPrng m prob (w.withPrng (n, u)) A c.root d.root e.root).total =
      w.total + candDelta m w A w.posB c.root d.root e.root := by
  have hs := h.spot
  have hnew : (w.o.ctree.inds d.root).xor (w.o.ctree.inds c.root) ∪ w.o.hyper A ∪ w.o.hyper w.posB =
      newB w.o.ctree.inds A w.posB c.root d.root e.root := by
    rw [hs.iA.2.1, hs.iB.2.1]; rfl
  unfold Walk.body
  unfold candDelta at hu
  simp only [Walk.withPrng, drawPrng, hnew, if_pos hu]
  rfl

/-- An accepted exchange, with the tree it leads to. -/
theorem At.accept {o o' : Bool} {A : ℕ} {c d e : PTree} (h : At m (some out) (!dis) w o A c K o' d e)
    (hd : w.o.disableShared = dis) (hsz : w.o.ctree.tree.size = N)
    (hl : ∀ p < w.o.ctree.tree.nLeaves, w.o.ctree.inds p = lf p) (hm : Meets (adjOf dis lf) d c) :
    ∃ n < 2, ∀ (prob : ℝ → ℝ → ℝ) (u : ℝ), u ≤ prob (candDelta m w A w.posB c.root d.root e.root) w.total →
      LiveAt m out dis lf N (Walk.once drawPrng m prob (w.withPrng (n, u))) K (fork o A (fork o' w.posB d c) e) ∧
      (Walk.once drawPrng m prob (w.withPrng (n, u))).total = w.total + candDelta m w A w.posB c.root d.root e.root := by
  have hmm := h.meets hl hm
  have hs := h.spot
  obtain ⟨n, hn, hst⟩ := exists_coin dis o' ((w.o.ctree.inds d.root).intersects (w.o.ctree.inds c.root))
    ((w.o.ctree.inds e.root).intersects (w.o.ctree.inds c.root)) (hmm.imp id fun hh => intersects_iff.2 hh)
  refine ⟨n, hn, fun prob u hu => ?_⟩
  have hnn : getCtreeNN drawPrng (w.withPrng (n, u)).o.ctree (w.withPrng (n, u)).o.disableShared
      (w.withPrng (n, u)).o.prng (w.withPrng (n, u)).posB = _ := hs.nn n u
  rw [hd, if_pos hst] at hnn
  have honce : Walk.once drawPrng m prob (w.withPrng (n, u)) =
      Walk.body drawPrng m prob (w.withPrng (n, u)) A c.root d.root e.root := by
    unfold Walk.once
    rw [hnn]
    rfl
  have h1 : WInv m (some out) (!dis) (w.withPrng (n, u)) (.frame o A c K) (fork o' w.posB d e) := WInv.withPrng h _
  obtain ⟨s', hw, -, hS, -, -⟩ := body_inv drawPrng m prob h1
    (fun hh => ⟨rfl, hmm.resolve_left (by simpa using hh)⟩)
  have hT := hs.body_tree prob n u
  rw [if_pos hu] at hT
  have hwf : WellFormed (cand w.o.ctree A w.posB c.root d.root e.root).tree (K.plug (fork o A (fork o' w.posB d c) e)) :=
    wellFormed_swap h.wf
  have hs' : s' = fork o A (fork o' w.posB d c) e := by
    apply K.plug_inj
    have hwf' := hw.wf
    rw [hT] at hwf'
    exact hwf'.enc.tree_eq hwf.enc (hwf'.root.trans hwf.root.symm)
  rw [honce]
  refine ⟨⟨hs' ▸ hw, ⟨o, fork o' w.posB d c, e, ?_⟩, hS.disable.trans hd, hS.size.trans hsz, ?_⟩, body_total h prob n hu⟩
  · congr 1
    have := hw.root
    rw [hs', root_fork] at this
    exact this
  · intro p hp
    have hp' : p < w.o.ctree.tree.nLeaves := by
      have : (Walk.body drawPrng m prob (w.withPrng (n, u)) A c.root d.root e.root).o.ctree.tree.size =
        w.o.ctree.tree.size := hS.size
      unfold Tree.nLeaves at hp ⊢
      rwa [this] at hp
    exact (hS.leafInds p hp').trans (hl p hp')

theorem LiveAt.parent (h : LiveAt m out dis lf N w .top s) : (w.o.ctree.tree.nodes w.posB).parent = none := by
  have := encodes_root_parent h.inv.wf.enc
  rw [← h.inv.root]
  simpa [Ctx.plug] using this

theorem LiveAt.once_top (h : LiveAt m out dis lf N w .top s) (prob : ℝ → ℝ → ℝ) (n : ℕ) (u : ℝ) :
    Walk.once drawPrng m prob (w.withPrng (n, u)) = w.withPrng (n, u) :=
  AtInner.root ⟨_, _, h.inv.forget, h.shape⟩ prob h.parent n u

/-- Any iteration: one frame is left behind, and the recorded minimum is unchanged. -/
theorem LiveAt.once {o : Bool} {A : ℕ} {c : PTree} (h : LiveAt m out dis lf N w (.frame o A c K) s) (prob : ℝ → ℝ → ℝ) (n : ℕ)
    (u : ℝ) : ∃ s', LiveAt m out dis lf N (Walk.once drawPrng m prob (w.withPrng (n, u))) K s' ∧
      (Walk.once drawPrng m prob (w.withPrng (n, u))).o.minTotal = w.o.minTotal := by
  obtain ⟨ob, l, r, rfl⟩ := h.shape
  have hat : At m (some out) (!dis) w o A c K ob l r := h.inv
  have hw0 : WInv m (some out) (!dis) (w.withPrng (n, u)) (.frame o A c K) (fork ob w.posB l r) := WInv.withPrng h.inv _
  obtain ⟨o', d, e, s2, hnn, hfork, hint⟩ := getCtreeNN_frame drawPrng (w.withPrng (n, u)).o.disableShared
    (w.withPrng (n, u)).o.prng hw0.wf
  have hsh : (!dis) = true → (some out).isSome = true ∧
      (w.o.ctree.inds d.root ∩ w.o.ctree.inds c.root).Nonempty := by
    intro hs
    have hdf : dis = false := by simpa using hs
    subst hdf
    refine ⟨rfl, hint h.dis ?_⟩
    obtain ⟨x, hx⟩ := (At.shr hat).2
    have hx' := Finset.mem_inter.1 hx
    rcases Finset.mem_union.1 (hat.spot.iB.1.2 hx'.1) with h | h
    · exact Or.inl ⟨x, Finset.mem_inter.2 ⟨h, hx'.2⟩⟩
    · exact Or.inr ⟨x, Finset.mem_inter.2 ⟨h, hx'.2⟩⟩
  have h1 : WInv m (some out) (!dis) { w.withPrng (n, u) with o := { (w.withPrng (n, u)).o with prng := s2 } } (.frame o A c K)
      (fork o' w.posB d e) := by
    rw [← hfork]
    exact ⟨hw0.wf, hw0.root, hw0.nodes, hw0.leaf, hw0.part, hw0.tail, hw0.total, hw0.sem, hw0.shr, hw0.dis⟩
  obtain ⟨s', hw, ⟨o2, l2, r2, hs2⟩, hS, -, hmin⟩ := body_inv drawPrng m prob h1 hsh
  have honce : Walk.once drawPrng m prob (w.withPrng (n, u)) = Walk.body drawPrng m prob
      { w.withPrng (n, u) with o := { (w.withPrng (n, u)).o with prng := s2 } } A c.root d.root e.root := by
    have hnn' : getCtreeNN drawPrng (w.withPrng (n, u)).o.ctree (w.withPrng (n, u)).o.disableShared
      (w.withPrng (n, u)).o.prng (w.withPrng (n, u)).posB = _ := hnn
    unfold Walk.once
    rw [hnn']
  rw [honce]
  refine ⟨s', ⟨hw, ⟨o2, l2, r2, ?_⟩, hS.disable.trans h.dis, hS.size.trans h.size, ?_⟩, hmin⟩
  · rw [hs2]
    congr 1
    have := hw.root
    rw [hs2, root_fork] at this
    exact this
  · intro p hp
    have hp' : p < w.o.ctree.tree.nLeaves := by
      have := hS.size
      unfold Tree.nLeaves at hp ⊢
      rw [this] at hp
      exact hp
    exact (hS.leafInds p hp').trans (h.leafs p hp')

end TNCO
