import Verif.Lemmas.Decompose
import Mathlib.Logic.Relation

/-! Networks of tensors with inputs and outputs: which indices are merged. -/

namespace TNCO
variable {ι : Type} [DecidableEq ι]

/-- A tensor: its outputs and inputs, the indices that are kept, and the groups of indices that were merged. -/
structure Gadget (ι : Type) where
  outs : List ι
  ins : List ι
  kept : List ι
  groups : List (ι × Finset ι)

/-- Two indices with the same value in every non-zero entry. -/
def Gadget.Forced (p : Gadget ι) (x y : ι) : Prop := ∀ f : ι → ℕ, Merged p.groups f → f x = f y

structure Wires (P : List (Gadget ι)) (opI opF : List ι) (τ : ι → ℕ) : Prop where
  time : ∀ p ∈ P, ∀ x ∈ p.ins, ∀ y ∈ p.outs, τ x < τ y
  cons : P.Pairwise fun p p' => ∀ x ∈ p.ins, x ∉ p'.ins
  prod : P.Pairwise fun p p' => ∀ x ∈ p.outs, x ∉ p'.outs
  sub : ∀ p ∈ P, ∀ x ∈ p.kept, x ∈ p.outs ++ p.ins
  groups : ∀ p ∈ P, ∀ x xs, dget p.groups x = some xs → ∀ z ∈ insert x xs, z ∈ p.outs ++ p.ins
  indep : ∀ p ∈ P, ∀ x ∈ p.kept, ∀ y ∈ p.kept, p.Forced x y → x = y
  cover : ∀ p ∈ P, p.kept = [] ∨ ∀ x ∈ p.outs ++ p.ins, ∃ y ∈ p.kept, p.Forced x y
  uin : ∀ p ∈ P, ∀ x ∈ p.ins, ∀ y ∈ p.ins, p.Forced x y → x = y
  uout : ∀ p ∈ P, ∀ x ∈ p.outs, ∀ y ∈ p.outs, p.Forced x y → x = y
  scalIn : ∀ p ∈ P, p.kept = [] → ∀ x ∈ p.ins, ∃ y ∈ p.outs, p.Forced x y
  scalOut : ∀ p ∈ P, p.kept = [] → ∀ y ∈ p.outs, ∃ x ∈ p.ins, p.Forced x y
  made : ∀ p ∈ P, ∀ x ∈ p.ins, x ∈ opI ∨ ∃ p' ∈ P, x ∈ p'.outs
  used : ∀ p ∈ P, ∀ x ∈ p.outs, x ∈ opF ∨ ∃ p' ∈ P, x ∈ p'.ins

/-- An input and an output of a tensor which are merged. -/
def Step (P : List (Gadget ι)) (x y : ι) : Prop := ∃ p ∈ P, x ∈ p.ins ∧ y ∈ p.outs ∧ p.Forced x y

variable {P : List (Gadget ι)} {opI opF : List ι} {τ : ι → ℕ}

theorem Wires.same_cons (W : Wires P opI opF τ) {p p' : Gadget ι} (hp : p ∈ P) (hp' : p' ∈ P) {x : ι} (h : x ∈ p.ins) (h' : x ∈ p'.ins) : p = p' := by
  by_contra hne
  have : Std.Symm fun p p' : Gadget ι => ∀ x ∈ p.ins, x ∉ p'.ins := ⟨fun a b hab y hy hy' => hab y hy' hy⟩
  exact W.cons.forall hp hp' hne x h h'

theorem Wires.same_prod (W : Wires P opI opF τ) {p p' : Gadget ι} (hp : p ∈ P) (hp' : p' ∈ P) {x : ι} (h : x ∈ p.outs) (h' : x ∈ p'.outs) : p = p' := by
  by_contra hne
  have : Std.Symm fun p p' : Gadget ι => ∀ x ∈ p.outs, x ∉ p'.outs := ⟨fun a b hab y hy hy' => hab y hy' hy⟩
  exact W.prod.forall hp hp' hne x h h'

theorem Wires.right_unique (W : Wires P opI opF τ) : Relator.RightUnique (Step P) := by
  rintro x y y' ⟨p, hp, h1, h2, h3⟩ ⟨p', hp', h1', h2', h3'⟩
  obtain rfl := W.same_cons hp hp' h1 h1'
  exact W.uout p hp y h2 y' h2' fun f hf => (h3 f hf).symm.trans (h3' f hf)

theorem Wires.left_unique (W : Wires P opI opF τ) : Relator.RightUnique (Function.swap (Step P)) := by
  rintro x y y' ⟨p, hp, h1, h2, h3⟩ ⟨p', hp', h1', h2', h3'⟩
  obtain rfl := W.same_prod hp hp' h2 h2'
  exact W.uin p hp y h1 y' h1' fun f hf => (h3 f hf).trans (h3' f hf).symm

theorem Wires.reach (W : Wires P opI opF τ) {x y : ι} (h : Relation.EqvGen (Step P) x y) :
    Relation.ReflTransGen (Step P) x y ∨ Relation.ReflTransGen (Step P) y x := by
  induction h with
  | rel x y h => exact Or.inl (.single h)
  | refl x => exact Or.inl .refl
  | symm x y _ ih => exact ih.symm
  | trans a b c _ _ ih1 ih2 =>
    rcases ih1 with h1 | h1 <;> rcases ih2 with h2 | h2
    · exact Or.inl (h1.trans h2)
    · have := Relation.ReflTransGen.total_of_right_unique W.left_unique (Relation.reflTransGen_swap.2 h1) (Relation.reflTransGen_swap.2 h2)
      rcases this with h | h
      · exact Or.inr (Relation.reflTransGen_swap.1 h)
      · exact Or.inl (Relation.reflTransGen_swap.1 h)
    · exact Relation.ReflTransGen.total_of_right_unique W.right_unique h1 h2
    · exact Or.inr (h2.trans h1)

theorem Wires.mono (W : Wires P opI opF τ) {x y : ι} (h : Relation.ReflTransGen (Step P) x y) : τ x ≤ τ y := by
  induction h with
  | refl => exact le_rfl
  | tail _ h ih =>
    obtain ⟨p, hp, h1, h2, -⟩ := h
    exact ih.trans (W.time p hp _ h1 _ h2).le

theorem Wires.reach_same (W : Wires P opI opF τ) {p : Gadget ι} (hp : p ∈ P) {x y : ι} (hx : x ∈ p.outs ++ p.ins) (hy : y ∈ p.outs ++ p.ins)
    (h : Relation.ReflTransGen (Step P) x y) : p.Forced x y := by
  rw [List.mem_append] at hx hy
  have noloop : ∀ z ∈ p.outs, ∀ y ∈ p.outs, Relation.ReflTransGen (Step P) z y → z = y := by
    intro z hz y hy h
    rcases Relation.ReflTransGen.cases_tail h with h | ⟨w, h1, p', hp', h2, h3, -⟩
    · exact h.symm
    · obtain rfl := W.same_prod hp hp' hy h3
      have := W.mono h1
      have := W.time p hp w h2 z hz
      omega
  rcases hx with hx | hx
  · rcases hy with hy | hy
    · rw [noloop x hx y hy h]; exact fun f _ => rfl
    · have := W.mono h
      have := W.time p hp y hy x hx
      omega
  · rcases Relation.ReflTransGen.cases_head h with h | ⟨z, ⟨p', hp', h1, h2, h3⟩, h4⟩
    · rw [h]; exact fun f _ => rfl
    · obtain rfl := W.same_cons hp hp' hx h1
      rcases hy with hy | hy
      · rw [← noloop z h2 y hy h4]; exact h3
      · have := W.mono h4
        have := W.time p hp y hy z h2
        omega

section
variable {A : List ι} {ρ : ι → ι} (hρ : ∀ f : ι → ℕ, (∀ p ∈ P, Merged p.groups f) ↔ ∀ x ∈ A, f x = f (ρ x))
include hρ

theorem Wires.class_of_forced (idem : ∀ x ∈ A, ρ (ρ x) = ρ x) {p : Gadget ι} (hp : p ∈ P) {x y : ι} (hx : x ∈ A) (hy : y ∈ A)
    (h : p.Forced x y) : ρ x = ρ y := by
  by_contra hne
  have hm : ∀ p ∈ P, Merged p.groups fun z => if ρ z = ρ x then 1 else 0 := (hρ _).2 fun z hz => by simp only [idem z hz]
  have := h _ (hm p hp)
  simp only [if_true] at this
  rw [if_neg fun h => hne h.symm] at this
  exact one_ne_zero this

theorem Wires.connected (W : Wires P opI opF τ) {x : ι} (hx : x ∈ A) : Relation.EqvGen (Step P) x (ρ x) := by
  classical
  have hm : ∀ p ∈ P, Merged p.groups fun z => if Relation.EqvGen (Step P) x z then 1 else 0 := by
    intro p hp a as has b hb
    have hf : p.Forced b a := fun f hf => hf a as has b hb
    have ha := W.groups p hp a as has a (by simp)
    have hb' := W.groups p hp a as has b (by simp [hb])
    rw [List.mem_append] at ha hb'
    have hab : Relation.EqvGen (Step P) b a := by
      rcases hb' with hb' | hb' <;> rcases ha with ha | ha
      · rw [W.uout p hp b hb' a ha hf]; exact .refl _
      · exact .symm _ _ (.rel _ _ ⟨p, hp, ha, hb', fun f h => (hf f h).symm⟩)
      · exact .rel _ _ ⟨p, hp, hb', ha, hf⟩
      · rw [W.uin p hp b hb' a ha hf]; exact .refl _
    have : Relation.EqvGen (Step P) x b ↔ Relation.EqvGen (Step P) x a := ⟨fun h => h.trans _ _ _ hab, fun h => h.trans _ _ _ (hab.symm _ _)⟩
    simp only [this]
  have := (hρ _).1 hm x hx
  simp only [if_pos (Relation.EqvGen.refl (r := Step P) x)] at this
  by_contra hne
  rw [if_neg hne] at this
  exact one_ne_zero this

/-- Two indices of a tensor that are kept are not merged. -/
theorem Wires.kept_inj (W : Wires P opI opF τ) (hA : ∀ p ∈ P, ∀ x ∈ p.outs ++ p.ins, x ∈ A) {p : Gadget ι} (hp : p ∈ P) {x y : ι}
    (hx : x ∈ p.kept) (hy : y ∈ p.kept) (h : ρ x = ρ y) : x = y := by
  have hx' := W.sub p hp x hx
  have hy' := W.sub p hp y hy
  have he : Relation.EqvGen (Step P) x y :=
    .trans _ _ _ (W.connected hρ (hA p hp x hx')) (h ▸ (W.connected hρ (hA p hp y hy')).symm _ _)
  refine W.indep p hp x hx y hy ?_
  rcases W.reach he with h | h
  · exact W.reach_same hp hx' hy' h
  · exact fun f hf => (W.reach_same hp hy' hx' h f hf).symm

/-- A class without open indices is kept by two tensors. -/
theorem Wires.two (W : Wires P opI opF τ) (idem : ∀ x ∈ A, ρ (ρ x) = ρ x) (hA : ∀ x, x ∈ A ↔ ∃ p ∈ P, x ∈ p.outs ++ p.ins) {x : ι} (hx : x ∈ A)
    (hI : ∀ a ∈ opI, ρ a ≠ ρ x) (hF : ∀ a ∈ opF, ρ a ≠ ρ x) :
    ∃ p ∈ P, ∃ p' ∈ P, p ≠ p' ∧ (∃ y ∈ p.kept, ρ y = ρ x) ∧ ∃ y ∈ p'.kept, ρ y = ρ x := by
  have hA' : ∀ p ∈ P, ∀ x ∈ p.outs ++ p.ins, x ∈ A := fun p hp x hx => (hA x).2 ⟨p, hp, hx⟩
  have memo : ∀ {p : Gadget ι} {y : ι}, y ∈ p.outs → y ∈ p.outs ++ p.ins := fun h => List.mem_append.2 (Or.inl h)
  have memi : ∀ {p : Gadget ι} {y : ι}, y ∈ p.ins → y ∈ p.outs ++ p.ins := fun h => List.mem_append.2 (Or.inr h)
  have keeps : ∀ p ∈ P, p.kept ≠ [] → ∀ y ∈ p.outs ++ p.ins, ρ y = ρ x → ∃ z ∈ p.kept, ρ z = ρ x := by
    intro p hp hk y hy hyx
    obtain ⟨z, hz, hf⟩ := (W.cover p hp).resolve_left hk y hy
    exact ⟨z, hz, (Wires.class_of_forced hρ idem hp (hA' p hp y hy) (hA' p hp z (W.sub p hp z hz)) hf).symm.trans hyx⟩
  have back : ∀ n, ∀ y ∈ A, ρ y = ρ x → τ y ≤ n → ∃ p ∈ P, p.kept ≠ [] ∧ ∃ z ∈ p.outs, ρ z = ρ x ∧ τ z ≤ τ y := by
    intro n
    induction n with
    | zero =>
      intro y hy hyx hn
      have key : ∀ p ∈ P, y ∈ p.outs → ∃ p ∈ P, p.kept ≠ [] ∧ ∃ z ∈ p.outs, ρ z = ρ x ∧ τ z ≤ τ y := by
        intro p hp ho
        by_cases hk : p.kept = []
        · obtain ⟨z, hz, -⟩ := W.scalOut p hp hk y ho
          have := W.time p hp z hz y ho
          omega
        · exact ⟨p, hp, hk, y, ho, hyx, le_rfl⟩
      obtain ⟨p, hp, hpy⟩ := (hA y).1 hy
      rcases List.mem_append.1 hpy with ho | hi
      · exact key p hp ho
      · rcases W.made p hp y hi with h | ⟨p', hp', ho⟩
        · exact absurd hyx (hI y h)
        · exact key p' hp' ho
    | succ n ih =>
      intro y hy hyx hn
      have key : ∀ p ∈ P, y ∈ p.outs → ∃ p ∈ P, p.kept ≠ [] ∧ ∃ z ∈ p.outs, ρ z = ρ x ∧ τ z ≤ τ y := by
        intro p hp ho
        by_cases hk : p.kept = []
        · obtain ⟨z, hz, hf⟩ := W.scalOut p hp hk y ho
          have ht := W.time p hp z hz y ho
          obtain ⟨p', hp', hk', w, hw, hwx, hwt⟩ := ih z (hA' p hp z (memi hz))
            ((Wires.class_of_forced hρ idem hp (hA' p hp z (memi hz)) hy hf).trans hyx) (by omega)
          exact ⟨p', hp', hk', w, hw, hwx, by omega⟩
        · exact ⟨p, hp, hk, y, ho, hyx, le_rfl⟩
      obtain ⟨p, hp, hpy⟩ := (hA y).1 hy
      rcases List.mem_append.1 hpy with ho | hi
      · exact key p hp ho
      · rcases W.made p hp y hi with h | ⟨p', hp', ho⟩
        · exact absurd hyx (hI y h)
        · exact key p' hp' ho
  obtain ⟨M, hM⟩ : ∃ M, ∀ y ∈ A, τ y ≤ M := ⟨(A.map τ).sum, fun y hy => List.single_le_sum (by simp) _ (List.mem_map.2 ⟨y, hy, rfl⟩)⟩
  have fwd : ∀ n, ∀ y ∈ A, ρ y = ρ x → M - τ y ≤ n → ∃ p ∈ P, p.kept ≠ [] ∧ ∃ z ∈ p.ins, ρ z = ρ x ∧ τ y ≤ τ z := by
    intro n
    induction n with
    | zero =>
      intro y hy hyx hn
      have key : ∀ p ∈ P, y ∈ p.ins → ∃ p ∈ P, p.kept ≠ [] ∧ ∃ z ∈ p.ins, ρ z = ρ x ∧ τ y ≤ τ z := by
        intro p hp ho
        by_cases hk : p.kept = []
        · obtain ⟨z, hz, -⟩ := W.scalIn p hp hk y ho
          have := W.time p hp y ho z hz
          have := hM z (hA' p hp z (memo hz))
          omega
        · exact ⟨p, hp, hk, y, ho, hyx, le_rfl⟩
      obtain ⟨p, hp, hpy⟩ := (hA y).1 hy
      rcases List.mem_append.1 hpy with ho | hi
      · rcases W.used p hp y ho with h | ⟨p', hp', ho⟩
        · exact absurd hyx (hF y h)
        · exact key p' hp' ho
      · exact key p hp hi
    | succ n ih =>
      intro y hy hyx hn
      have key : ∀ p ∈ P, y ∈ p.ins → ∃ p ∈ P, p.kept ≠ [] ∧ ∃ z ∈ p.ins, ρ z = ρ x ∧ τ y ≤ τ z := by
        intro p hp ho
        by_cases hk : p.kept = []
        · obtain ⟨z, hz, hf⟩ := W.scalIn p hp hk y ho
          have ht := W.time p hp y ho z hz
          obtain ⟨p', hp', hk', w, hw, hwx, hwt⟩ := ih z (hA' p hp z (memo hz))
            ((Wires.class_of_forced hρ idem hp hy (hA' p hp z (memo hz)) hf).symm.trans hyx) (by omega)
          exact ⟨p', hp', hk', w, hw, hwx, by omega⟩
        · exact ⟨p, hp, hk, y, ho, hyx, le_rfl⟩
      obtain ⟨p, hp, hpy⟩ := (hA y).1 hy
      rcases List.mem_append.1 hpy with ho | hi
      · rcases W.used p hp y ho with h | ⟨p', hp', ho⟩
        · exact absurd hyx (hF y h)
        · exact key p' hp' ho
      · exact key p hp hi
  obtain ⟨p, hp, hk, z, hz, hzx, hzt⟩ := back (τ x) x hx rfl le_rfl
  obtain ⟨p', hp', hk', z', hz', hzx', hzt'⟩ := fwd (M - τ x) x hx rfl le_rfl
  refine ⟨p, hp, p', hp', ?_, keeps p hp hk z (memo hz) hzx, keeps p' hp' hk' z' (memi hz') hzx'⟩
  rintro rfl
  have := W.time p hp z' hz' z hz
  omega

/-- If no index of a class is kept, it has an open input and an open output. -/
theorem Wires.survives (W : Wires P opI opF τ) (idem : ∀ x ∈ A, ρ (ρ x) = ρ x) (hA : ∀ x, x ∈ A ↔ ∃ p ∈ P, x ∈ p.outs ++ p.ins) {x : ι} (hx : x ∈ A)
    (hno : ∀ p ∈ P, ∀ y ∈ p.kept, ρ y ≠ ρ x) : (∃ a ∈ opI, ρ a = ρ x ∧ a ∈ A) ∧ ∃ b ∈ opF, ρ b = ρ x ∧ b ∈ A := by
  have hA' : ∀ p ∈ P, ∀ x ∈ p.outs ++ p.ins, x ∈ A := fun p hp x hx => (hA x).2 ⟨p, hp, hx⟩
  have scal : ∀ p ∈ P, ∀ y ∈ p.outs ++ p.ins, ρ y = ρ x → p.kept = [] := by
    intro p hp y hy hyx
    rcases W.cover p hp with h | h
    · exact h
    · obtain ⟨z, hz, hf⟩ := h y hy
      exact absurd ((Wires.class_of_forced hρ idem hp (hA' p hp y hy) (hA' p hp z (W.sub p hp z hz)) hf).symm.trans hyx) (hno p hp z hz)
  have memo : ∀ {p : Gadget ι} {y : ι}, y ∈ p.outs → y ∈ p.outs ++ p.ins := fun h => List.mem_append.2 (Or.inl h)
  have memi : ∀ {p : Gadget ι} {y : ι}, y ∈ p.ins → y ∈ p.outs ++ p.ins := fun h => List.mem_append.2 (Or.inr h)
  constructor
  · have back : ∀ n, ∀ y ∈ A, ρ y = ρ x → τ y ≤ n → ∃ a ∈ opI, ρ a = ρ x ∧ a ∈ A := by
      intro n
      induction n with
      | zero =>
        intro y hy hyx hn
        obtain ⟨p, hp, hpy⟩ := (hA y).1 hy
        have key : ∀ p ∈ P, y ∈ p.outs → False := by
          intro p hp ho
          obtain ⟨z, hz, -⟩ := W.scalOut p hp (scal p hp y (memo ho) hyx) y ho
          have := W.time p hp z hz y ho
          omega
        rcases List.mem_append.1 hpy with ho | hi
        · exact (key p hp ho).elim
        · rcases W.made p hp y hi with h | ⟨p', hp', ho⟩
          · exact ⟨y, h, hyx, hy⟩
          · exact (key p' hp' ho).elim
      | succ n ih =>
        intro y hy hyx hn
        obtain ⟨p, hp, hpy⟩ := (hA y).1 hy
        have key : ∀ p ∈ P, y ∈ p.outs → ∃ a ∈ opI, ρ a = ρ x ∧ a ∈ A := by
          intro p hp ho
          obtain ⟨z, hz, hf⟩ := W.scalOut p hp (scal p hp y (memo ho) hyx) y ho
          have := W.time p hp z hz y ho
          exact ih z (hA' p hp z (memi hz)) ((Wires.class_of_forced hρ idem hp (hA' p hp z (memi hz)) hy hf).trans hyx) (by omega)
        rcases List.mem_append.1 hpy with ho | hi
        · exact key p hp ho
        · rcases W.made p hp y hi with h | ⟨p', hp', ho⟩
          · exact ⟨y, h, hyx, hy⟩
          · exact key p' hp' ho
    exact back (τ x) x hx rfl le_rfl
  · obtain ⟨M, hM⟩ : ∃ M, ∀ y ∈ A, τ y ≤ M := ⟨(A.map τ).sum, fun y hy => List.single_le_sum (by simp) _ (List.mem_map.2 ⟨y, hy, rfl⟩)⟩
    have fwd : ∀ n, ∀ y ∈ A, ρ y = ρ x → M - τ y ≤ n → ∃ a ∈ opF, ρ a = ρ x ∧ a ∈ A := by
      intro n
      induction n with
      | zero =>
        intro y hy hyx hn
        obtain ⟨p, hp, hpy⟩ := (hA y).1 hy
        have key : ∀ p ∈ P, y ∈ p.ins → False := by
          intro p hp ho
          obtain ⟨z, hz, -⟩ := W.scalIn p hp (scal p hp y (memi ho) hyx) y ho
          have := W.time p hp y ho z hz
          have := hM z (hA' p hp z (memo hz))
          omega
        rcases List.mem_append.1 hpy with ho | hi
        · rcases W.used p hp y ho with h | ⟨p', hp', ho⟩
          · exact ⟨y, h, hyx, hy⟩
          · exact (key p' hp' ho).elim
        · exact (key p hp hi).elim
      | succ n ih =>
        intro y hy hyx hn
        obtain ⟨p, hp, hpy⟩ := (hA y).1 hy
        have key : ∀ p ∈ P, y ∈ p.ins → ∃ a ∈ opF, ρ a = ρ x ∧ a ∈ A := by
          intro p hp ho
          obtain ⟨z, hz, hf⟩ := W.scalIn p hp (scal p hp y (memi ho) hyx) y ho
          have := W.time p hp y ho z hz
          exact ih z (hA' p hp z (memo hz)) ((Wires.class_of_forced hρ idem hp hy (hA' p hp z (memo hz)) hf).symm.trans hyx) (by omega)
        rcases List.mem_append.1 hpy with ho | hi
        · rcases W.used p hp y ho with h | ⟨p', hp', ho⟩
          · exact ⟨y, h, hyx, hy⟩
          · exact key p' hp' ho
        · exact key p hp hi
    exact fwd (M - τ x) x hx rfl le_rfl

end
end TNCO
