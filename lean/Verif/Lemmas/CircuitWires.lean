import Verif.Lemmas.CircuitRaw
import Verif.Lemmas.UnitaryMerge
import Verif.Lemmas.DecomposeNet

/-! The network of a circuit as a network of tensors with inputs and outputs. -/

namespace TNCO
variable {Q K : Type} [DecidableEq Q] [Field K]

/-- The gates with the counters before each of them. -/
def stages : List (Gate Q K) → (Q → ℕ) → List (Gate Q K × (Q → ℕ))
  | [], _ => []
  | g :: rest, c => (g, c) :: stages rest (bump c g)

theorem buildTs_eq (gates : List (Gate Q K)) (c : Q → ℕ) : buildTs gates c = (stages gates c).map fun s => gateTensor s.1 s.2 := by
  induction gates generalizing c with
  | nil => rfl
  | cons g rest ih => unfold buildTs stages; rw [List.map_cons, ih]

theorem bump_mem {g : Gate Q K} (hn : g.2.Nodup) (c : Q → ℕ) (q : Q) : bump c g q = c q + if q ∈ g.2 then 1 else 0 := by
  unfold bump; rw [count_le_one hn]

theorem stages_mem {gates : List (Gate Q K)} (hg : ∀ g ∈ gates, IsGate g) {c : Q → ℕ} {s : Gate Q K × (Q → ℕ)} (hs : s ∈ stages gates c) :
    s.1 ∈ gates ∧ ∀ q, c q ≤ s.2 q ∧ (q ∈ s.1.2 → s.2 q + 1 ≤ finalCount gates c q) := by
  induction gates generalizing c with
  | nil => simp [stages] at hs
  | cons g rest ih =>
    have hb := bump_mem (hg g (by simp)).nodup c
    unfold stages at hs
    rcases List.mem_cons.1 hs with rfl | hs
    · refine ⟨by simp, fun q => ⟨le_rfl, fun hq => ?_⟩⟩
      rw [← finalCount_cons]
      have := hb q
      rw [if_pos hq] at this
      unfold finalCount
      simp only
      omega
    · obtain ⟨h1, h2⟩ := ih (fun k hk => hg k (by simp [hk])) hs
      refine ⟨by simp [h1], fun q => ⟨?_, fun hq => ?_⟩⟩
      · have := (h2 q).1; have := hb q; split at this <;> omega
      · rw [← finalCount_cons]; exact (h2 q).2 hq

theorem stages_exists {gates : List (Gate Q K)} (hg : ∀ g ∈ gates, IsGate g) {c : Q → ℕ} {q : Q} {j : ℕ} (h1 : c q ≤ j)
    (h2 : j < finalCount gates c q) : ∃ s ∈ stages gates c, q ∈ s.1.2 ∧ s.2 q = j := by
  induction gates generalizing c with
  | nil => unfold finalCount at h2; simp at h2; omega
  | cons g rest ih =>
    have hb := bump_mem (hg g (by simp)).nodup c q
    unfold stages
    by_cases hc : q ∈ g.2 ∧ c q = j
    · exact ⟨(g, c), by simp, hc.1, hc.2⟩
    · obtain ⟨s, hs, h3⟩ := ih (fun k hk => hg k (by simp [hk])) (c := bump c g) (by split at hb <;> grind) (by rw [finalCount_cons]; exact h2)
      exact ⟨s, by simp [hs], h3⟩

theorem stages_pairwise {gates : List (Gate Q K)} (hg : ∀ g ∈ gates, IsGate g) (c : Q → ℕ) :
    (stages gates c).Pairwise fun s s' => ∀ q ∈ s.1.2, s.2 q < s'.2 q := by
  induction gates generalizing c with
  | nil => exact List.Pairwise.nil
  | cons g rest ih =>
    have hr : ∀ k ∈ rest, IsGate k := fun k hk => hg k (by simp [hk])
    unfold stages
    refine List.Pairwise.cons (fun s hs q hq => ?_) (ih hr _)
    have h1 := ((stages_mem hr hs).2 q).1
    have hb := bump_mem (hg g (by simp)).nodup c q
    simp only at hq
    rw [if_pos hq] at hb
    simp only
    omega

/-- A number for each index, growing from the inputs to the outputs of every gate. -/
def timeOf : List (Gate Q K) → (Q → ℕ) → Q × ℕ → ℕ
  | [], _, _ => 0
  | g :: rest, c, x => if x.1 ∈ g.2 ∧ x.2 = c x.1 then 0 else 1 + timeOf rest (bump c g) x

theorem timeOf_lt {gates : List (Gate Q K)} (hg : ∀ g ∈ gates, IsGate g) {c : Q → ℕ} {s : Gate Q K × (Q → ℕ)} (hs : s ∈ stages gates c) {q q' : Q}
    (hq : q ∈ s.1.2) (_hq' : q' ∈ s.1.2) : timeOf gates c (q, s.2 q) < timeOf gates c (q', s.2 q' + 1) := by
  induction gates generalizing c with
  | nil => simp [stages] at hs
  | cons g rest ih =>
    have hr : ∀ k ∈ rest, IsGate k := fun k hk => hg k (by simp [hk])
    unfold stages at hs
    rcases List.mem_cons.1 hs with rfl | hs
    · unfold timeOf
      rw [if_pos ⟨hq, rfl⟩, if_neg]
      · omega
      · simp
    · have hb := bump_mem (hg g (by simp)).nodup c
      have h1 := stages_mem hr hs
      unfold timeOf
      rw [if_neg, if_neg]
      · have := ih hr hs; omega
      · rintro ⟨h2, h3⟩
        simp only at h2 h3
        have := (h1.2 q').1
        have := hb q'
        rw [if_pos h2] at this
        omega
      · rintro ⟨h2, h3⟩
        simp only at h2 h3
        have := (h1.2 q).1
        have := hb q
        rw [if_pos h2] at this
        omega

variable [StarRing K]

/-- The tensors of the network, with their outputs and inputs. -/
def rawIO (gates : List (Gate Q K)) (Si : List Q) (ai : Q → NDArray K) (Sf : List Q) (af : Q → NDArray K) :
    List (NDArray K × List (Q × Stage) × List (Q × Stage)) :=
  ((stages gates fun _ => 0).map fun s => ((gateTensor s.1 s.2).1,
    (s.1.2.map fun q => relabel (finalCount gates fun _ => 0) (q, s.2 q + 1)), s.1.2.map fun q => relabel (finalCount gates fun _ => 0) (q, s.2 q))) ++
    (Si.map (fun q => (ai q, [(q, Stage.i)], [])) ++ Sf.map fun q => (starArray (af q), [], [(q, Stage.f)]))

theorem rawTs_eq (gates : List (Gate Q K)) (Si : List Q) (ai : Q → NDArray K) (Sf : List Q) (af : Q → NDArray K) :
    rawTs gates Si ai Sf af = (rawIO gates Si ai Sf af).map fun t => (t.1, t.2.1 ++ t.2.2) := by
  unfold rawTs rawIO
  simp only [List.map_append, List.map_map, Function.comp_def, buildTs_eq, List.append_nil, List.nil_append]
  unfold gateTensor
  simp only [List.map_append, List.map_map, Function.comp_def]

theorem mem_zip_left {α β : Type} {l : List α} {m : List β} (h : l.length = m.length) {a : α} (ha : a ∈ l) : ∃ b, (a, b) ∈ l.zip m := by
  obtain ⟨n, hn, rfl⟩ := List.mem_iff_getElem.1 ha
  exact ⟨m[n], List.mem_iff_getElem.2 ⟨n, by simp; omega, by simp⟩⟩

/-- The gadgets of the network after the decomposition. -/
def gadgets (io : List (NDArray K × List (Q × Stage) × List (Q × Stage)))
    (rs : List ((NDArray K × List (Q × Stage)) × List ((Q × Stage) × Finset (Q × Stage)))) : List (Gadget (Q × Stage)) :=
  (io.zip rs).map fun p => ⟨p.1.2.1, p.1.2.2, p.2.1.2, p.2.2⟩

theorem pairwise_zip_left {α β : Type} {R : α → α → Prop} {l : List α} (h : l.Pairwise R) (m : List β) : (l.zip m).Pairwise fun p p' => R p.1 p'.1 := by
  induction h generalizing m with
  | nil => exact List.Pairwise.nil
  | cons h1 _ ih =>
    cases m with
    | nil => exact List.Pairwise.nil
    | cons b m =>
      rw [List.zip_cons_cons]
      exact List.Pairwise.cons (fun p hp => h1 _ (List.of_mem_zip (show (p.1, p.2) ∈ _ from hp)).1) (ih m)

theorem rawIO_nodup {gates : List (Gate Q K)} (hg : ∀ g ∈ gates, IsGate g) {Si Sf : List Q} {ai af : Q → NDArray K}
    {t : NDArray K × List (Q × Stage) × List (Q × Stage)} (ht : t ∈ rawIO gates Si ai Sf af) : (t.2.1 ++ t.2.2).Nodup := by
  have einj := relabel_inj (finalCount gates fun _ => 0)
  unfold rawIO at ht
  rcases List.mem_append.1 ht with ht | ht
  · obtain ⟨s, hs, rfl⟩ := List.mem_map.1 ht
    have hn := (hg _ (stages_mem hg hs).1).nodup
    refine List.Nodup.append (hn.map ?_) (hn.map ?_) ?_
    · intro a b h; have := einj h; simp only [Prod.mk.injEq] at this; exact this.1
    · intro a b h; have := einj h; simp only [Prod.mk.injEq] at this; exact this.1
    · intro x h1 h2
      obtain ⟨a, -, rfl⟩ := List.mem_map.1 h1
      obtain ⟨b, -, h⟩ := List.mem_map.1 h2
      have := einj h
      simp only [Prod.mk.injEq] at this
      obtain ⟨rfl, h⟩ := this
      omega
  · rcases List.mem_append.1 ht with ht | ht <;> obtain ⟨q, -, rfl⟩ := List.mem_map.1 ht <;> simp

/-- Every tensor has axes of length 2. -/
theorem rawIO_shape {gates : List (Gate Q K)} {qubits Si Sf : List Q} {v w : Q → Option (ℕ → K)} {ai af : Q → NDArray K}
    (hi : StateArrays qubits Si v ai) (hf : StateArrays qubits Sf w af)
    {t : NDArray K × List (Q × Stage) × List (Q × Stage)} (ht : t ∈ rawIO gates Si ai Sf af) : t.1.shape = (t.2.1 ++ t.2.2).map fun _ => 2 := by
  unfold rawIO at ht
  rcases List.mem_append.1 ht with ht | ht
  · obtain ⟨s, hs, rfl⟩ := List.mem_map.1 ht
    unfold gateTensor
    simp only [List.map_append, List.map_map, Function.comp_def, List.map_const']
    rw [two_mul, List.replicate_add]
  · rcases List.mem_append.1 ht with ht | ht <;> obtain ⟨q, hq, rfl⟩ := List.mem_map.1 ht
    · exact (hi.get q hq).1
    · exact (hf.get q hq).1

theorem raw_wires {gates : List (Gate Q K)} (hg : ∀ g ∈ gates, IsGate g ∧ IsUnitary g) {qubits Si Sf : List Q}
    (hq : ∀ q, q ∈ qubits ↔ q ∈ gates.flatMap Prod.snd) {v w : Q → Option (ℕ → K)} {ai af : Q → NDArray K} (hi : StateArrays qubits Si v ai)
    (hf : StateArrays qubits Sf w af) {rs : List ((NDArray K × List (Q × Stage)) × List ((Q × Stage) × Finset (Q × Stage)))}
    (hrs : List.Forall₂ (fun t b => Decomposed (fun _ => 2) t.1 (t.2.1 ++ t.2.2) [] b.1.1 b.1.2 b.2) (rawIO gates Si ai Sf af) rs) :
    ∃ τ, Wires (gadgets (rawIO gates Si ai Sf af) rs) ((qubits.filter (· ∉ Si)).map fun q => (q, Stage.i))
      ((qubits.filter (· ∉ Sf)).map fun q => (q, Stage.f)) τ := by
  have hg1 : ∀ g ∈ gates, IsGate g := fun g h => (hg g h).1
  set c := finalCount gates fun _ => 0 with hc
  set e := relabel c with he
  have einj : Function.Injective e := relabel_inj c
  have e0 : ∀ q, e (q, 0) = (q, .i) := relabel_zero c
  have ec : ∀ q ∈ qubits, e (q, c q) = (q, .f) := fun q h => relabel_last (finalCount_pos ((hq q).1 h))
  have cpos : ∀ q ∈ qubits, c q ≠ 0 := fun q h => finalCount_pos ((hq q).1 h)
  have hSi : ∀ q ∈ Si, q ∈ qubits := fun q h => ((hi.mem q).1 h).1
  have hSf : ∀ q ∈ Sf, q ∈ qubits := fun q h => ((hf.mem q).1 h).1
  set io := rawIO gates Si ai Sf af with hio
  have hlen : io.length = rs.length := hrs.length_eq
  -- the three kinds of tensors
  have kinds : ∀ t ∈ io, (∃ s ∈ stages gates fun _ => 0, t = ((gateTensor s.1 s.2).1, (s.1.2.map fun q => e (q, s.2 q + 1)), s.1.2.map fun q => e (q, s.2 q))) ∨
      (∃ q ∈ Si, t = (ai q, [(q, Stage.i)], [])) ∨ ∃ q ∈ Sf, t = (starArray (af q), [], [(q, Stage.f)]) := by
    intro t ht
    rw [hio] at ht
    unfold rawIO at ht
    rcases List.mem_append.1 ht with ht | ht
    · obtain ⟨s, hs, rfl⟩ := List.mem_map.1 ht
      exact Or.inl ⟨s, hs, rfl⟩
    · rcases List.mem_append.1 ht with ht | ht <;> obtain ⟨q, hq', rfl⟩ := List.mem_map.1 ht
      · exact Or.inr (Or.inl ⟨q, hq', rfl⟩)
      · exact Or.inr (Or.inr ⟨q, hq', rfl⟩)
  have memG : ∀ s ∈ stages gates fun _ => 0, ((gateTensor s.1 s.2).1, (s.1.2.map fun q => e (q, s.2 q + 1)), s.1.2.map fun q => e (q, s.2 q)) ∈ io := by
    intro s hs
    rw [hio]
    unfold rawIO
    exact List.mem_append.2 (Or.inl (List.mem_map.2 ⟨s, hs, rfl⟩))
  have memI : ∀ q ∈ Si, (ai q, [(q, Stage.i)], []) ∈ io := by
    intro q hq'
    rw [hio]
    unfold rawIO
    exact List.mem_append.2 (Or.inr (List.mem_append.2 (Or.inl (List.mem_map.2 ⟨q, hq', rfl⟩))))
  have memF : ∀ q ∈ Sf, (starArray (af q), [], [(q, Stage.f)]) ∈ io := by
    intro q hq'
    rw [hio]
    unfold rawIO
    exact List.mem_append.2 (Or.inr (List.mem_append.2 (Or.inr (List.mem_map.2 ⟨q, hq', rfl⟩))))
  have touched : ∀ s ∈ stages gates fun _ => 0, ∀ q ∈ s.1.2, q ∈ qubits := fun s hs q hqs =>
    (hq q).2 (List.mem_flatMap.2 ⟨s.1, (stages_mem hg1 hs).1, hqs⟩)
  have hP : ∀ p ∈ gadgets io rs, ∃ t ∈ io, ∃ b : (NDArray K × List (Q × Stage)) × List ((Q × Stage) × Finset (Q × Stage)), p = ⟨t.2.1, t.2.2, b.1.2, b.2⟩ ∧ Decomposed (fun _ => 2) t.1 (t.2.1 ++ t.2.2) [] b.1.1 b.1.2 b.2 := by
    intro p hp
    obtain ⟨⟨t, b⟩, hz, rfl⟩ := List.mem_map.1 hp
    exact ⟨t, (List.of_mem_zip hz).1, b, rfl, (List.forall₂_iff_zip.1 hrs).2 hz⟩
  have hin : ∀ t ∈ io, ∃ p ∈ gadgets io rs, p.outs = t.2.1 ∧ p.ins = t.2.2 := by
    intro t ht
    obtain ⟨b, hb⟩ := mem_zip_left hlen ht
    exact ⟨_, List.mem_map.2 ⟨_, hb, rfl⟩, rfl, rfl⟩
  have prods : ∀ q ∈ qubits, ∀ j, j ≠ 0 → j ≤ c q → ∃ p ∈ gadgets io rs, e (q, j) ∈ p.outs := by
    intro q _ j hj0 hj
    obtain ⟨s, hs, h1, h2⟩ := stages_exists hg1 (c := fun _ => 0) (q := q) (j := j - 1) (Nat.zero_le _) (by rw [← hc]; omega)
    obtain ⟨p, hp, h3, -⟩ := hin _ (memG s hs)
    refine ⟨p, hp, ?_⟩
    rw [h3]
    refine List.mem_map.2 ⟨q, h1, ?_⟩
    rw [h2, Nat.sub_add_cancel (by omega)]
  have conss : ∀ q ∈ qubits, ∀ j, j < c q → ∃ p ∈ gadgets io rs, e (q, j) ∈ p.ins := by
    intro q _ j hj
    obtain ⟨s, hs, h1, h2⟩ := stages_exists hg1 (c := fun _ => 0) (q := q) (j := j) (Nat.zero_le _) (by rw [← hc]; omega)
    obtain ⟨p, hp, -, h3⟩ := hin _ (memG s hs)
    refine ⟨p, hp, ?_⟩
    rw [h3]
    refine List.mem_map.2 ⟨q, h1, ?_⟩
    rw [h2]
  have gateData : ∀ s ∈ stages gates fun _ => 0, ∀ f : Q × Stage → ℕ,
      (gateTensor s.1 s.2).1.get (((s.1.2.map fun q => e (q, s.2 q + 1)) ++ s.1.2.map fun q => e (q, s.2 q)).map f) =
        entry s.1 (fun q => f (e (q, s.2 q + 1))) fun q => f (e (q, s.2 q)) := by
    intro s hs f
    have := gateTensor_get (hg1 _ (stages_mem hg1 hs).1) s.2 fun x => f (e x)
    rw [← this]
    unfold gateTensor
    simp only [List.map_append, List.map_map, Function.comp_def]
  classical
  set τ : Q × Stage → ℕ := fun z => if h : ∃ x, e x = z then timeOf gates (fun _ => 0) h.choose else 0 with hτ
  have τe : ∀ x, τ (e x) = timeOf gates (fun _ => 0) x := by
    intro x
    have h : ∃ x', e x' = e x := ⟨x, rfl⟩
    rw [hτ]
    simp only [dif_pos h]
    rw [einj h.choose_spec]
  refine ⟨τ, ?_, ?_, ?_, ?_, ?_, ?_, ?_, ?_, ?_, ?_, ?_, ?_, ?_⟩
  · intro p hp x hx y hy
    obtain ⟨t, ht, b, rfl, -⟩ := hP p hp
    simp only at hx hy
    rcases kinds t ht with ⟨s, hs, rfl⟩ | ⟨q, hq', rfl⟩ | ⟨q, hq', rfl⟩
    · obtain ⟨q, h1, rfl⟩ := List.mem_map.1 hx
      obtain ⟨q', h2, rfl⟩ := List.mem_map.1 hy
      rw [τe, τe]
      exact timeOf_lt hg1 hs h1 h2
    · simp at hx
    · simp at hy
  · refine List.pairwise_map.2 (pairwise_zip_left (R := fun t t' : NDArray K × List (Q × Stage) × List (Q × Stage) => ∀ x ∈ t.2.2, x ∉ t'.2.2) ?_ rs)
    rw [hio]
    unfold rawIO
    rw [List.pairwise_append, List.pairwise_append]
    refine ⟨?_, ⟨?_, ?_, ?_⟩, ?_⟩
    · refine List.pairwise_map.2 ((stages_pairwise hg1 _).imp ?_)
      intro s s' h x hx hx'
      obtain ⟨q, h1, rfl⟩ := List.mem_map.1 hx
      obtain ⟨q', h2, h3⟩ := List.mem_map.1 hx'
      have := einj h3
      simp only [Prod.mk.injEq] at this
      obtain ⟨rfl, h4⟩ := this
      have := h _ h1
      omega
    · exact List.pairwise_map.2 (List.pairwise_of_forall fun _ _ x hx => by simp at hx)
    · refine List.pairwise_map.2 (hf.nodup.imp ?_)
      intro a b hab x hx hx'
      rw [List.mem_singleton] at hx hx'
      rw [hx] at hx'
      simp only [Prod.mk.injEq, and_true] at hx'
      exact hab hx'
    · intro a ha b hb x hx
      obtain ⟨q, -, rfl⟩ := List.mem_map.1 ha
      simp at hx
    · intro a ha b hb x hx hx'
      obtain ⟨s, hs, rfl⟩ := List.mem_map.1 ha
      obtain ⟨q, h1, rfl⟩ := List.mem_map.1 hx
      rcases List.mem_append.1 hb with hb | hb <;> obtain ⟨q', hq', rfl⟩ := List.mem_map.1 hb
      · simp at hx'
      · rw [List.mem_singleton, ← ec q' (hSf q' hq')] at hx'
        have := einj hx'
        simp only [Prod.mk.injEq] at this
        obtain ⟨rfl, h2⟩ := this
        have := ((stages_mem hg1 hs).2 q).2 h1
        rw [← hc] at this
        omega
  · refine List.pairwise_map.2 (pairwise_zip_left (R := fun t t' : NDArray K × List (Q × Stage) × List (Q × Stage) => ∀ x ∈ t.2.1, x ∉ t'.2.1) ?_ rs)
    rw [hio]
    unfold rawIO
    rw [List.pairwise_append, List.pairwise_append]
    refine ⟨?_, ⟨?_, ?_, ?_⟩, ?_⟩
    · refine List.pairwise_map.2 ((stages_pairwise hg1 _).imp ?_)
      intro s s' h x hx hx'
      obtain ⟨q, h1, rfl⟩ := List.mem_map.1 hx
      obtain ⟨q', h2, h3⟩ := List.mem_map.1 hx'
      have := einj h3
      simp only [Prod.mk.injEq] at this
      obtain ⟨rfl, h4⟩ := this
      have := h _ h1
      omega
    · refine List.pairwise_map.2 (hi.nodup.imp ?_)
      intro a b hab x hx hx'
      rw [List.mem_singleton] at hx hx'
      rw [hx] at hx'
      simp only [Prod.mk.injEq, and_true] at hx'
      exact hab hx'
    · exact List.pairwise_map.2 (List.pairwise_of_forall fun _ _ x hx => by simp at hx)
    · intro a ha b hb x hx hx'
      obtain ⟨q, -, rfl⟩ := List.mem_map.1 hb
      simp at hx'
    · intro a ha b hb x hx hx'
      obtain ⟨s, hs, rfl⟩ := List.mem_map.1 ha
      obtain ⟨q, h1, rfl⟩ := List.mem_map.1 hx
      rcases List.mem_append.1 hb with hb | hb <;> obtain ⟨q', hq', rfl⟩ := List.mem_map.1 hb
      · rw [List.mem_singleton, ← e0 q'] at hx'
        have := einj hx'
        simp at this
      · simp at hx'
  · intro p hp x hx
    obtain ⟨t, ht, b, rfl, D⟩ := hP p hp
    exact D.sub x hx
  · intro p hp x xs hx z hz
    obtain ⟨t, ht, b, rfl, D⟩ := hP p hp
    rcases Finset.mem_insert.1 hz with rfl | hz
    · rcases D.inds_of _ xs hx with ⟨_, _, h, -⟩ | h
      · simp [dget] at h
      · exact h
    · rcases D.inds_of' x xs hx z hz with ⟨_, _, h, -⟩ | h
      · simp [dget] at h
      · exact h
  · intro p hp x hx y hy h
    obtain ⟨t, ht, b, rfl, D⟩ := hP p hp
    by_contra hne
    obtain ⟨f, hf1, hf2⟩ := D.indep (fun g => ⟨g, merged_nil g, fun _ _ => rfl⟩) fun z => if z = x then 1 else 0
    have := h f hf1
    rw [hf2 x hx, hf2 y hy, if_pos rfl, if_neg fun e => hne e.symm] at this
    exact one_ne_zero this
  · intro p hp
    obtain ⟨t, ht, b, rfl, D⟩ := hP p hp
    exact D.cover
  · intro p hp x hx y hy h
    obtain ⟨t, ht, b, rfl, D⟩ := hP p hp
    have hn := rawIO_nodup hg1 ht
    rcases kinds t ht with ⟨s, hs, rfl⟩ | ⟨q, hq', rfl⟩ | ⟨q, hq', rfl⟩
    · obtain ⟨u1, u2⟩ := hg _ (stages_mem hg1 hs).1
      exact gate_uin u1 u2 hn (gateData s hs) D hx hy h
    · simp at hx
    · rw [List.mem_singleton.1 hx, List.mem_singleton.1 hy]
  · intro p hp x hx y hy h
    obtain ⟨t, ht, b, rfl, D⟩ := hP p hp
    have hn := rawIO_nodup hg1 ht
    rcases kinds t ht with ⟨s, hs, rfl⟩ | ⟨q, hq', rfl⟩ | ⟨q, hq', rfl⟩
    · obtain ⟨u1, u2⟩ := hg _ (stages_mem hg1 hs).1
      exact gate_uout u1 u2 hn (gateData s hs) D hx hy h
    · rw [List.mem_singleton.1 hx, List.mem_singleton.1 hy]
    · simp at hx
  · intro p hp h0 x hx
    obtain ⟨t, ht, b, rfl, D⟩ := hP p hp
    have hn := rawIO_nodup hg1 ht
    rcases kinds t ht with ⟨s, hs, rfl⟩ | ⟨q, hq', rfl⟩ | ⟨q, hq', rfl⟩
    · obtain ⟨u1, u2⟩ := hg _ (stages_mem hg1 hs).1
      exact gate_scalIn u1 u2 hn (gateData s hs) D h0 hx
    · simp at hx
    · have := D.single (by simp)
      simp only at h0
      rw [h0] at this
      simp at this
  · intro p hp h0 x hx
    obtain ⟨t, ht, b, rfl, D⟩ := hP p hp
    have hn := rawIO_nodup hg1 ht
    rcases kinds t ht with ⟨s, hs, rfl⟩ | ⟨q, hq', rfl⟩ | ⟨q, hq', rfl⟩
    · obtain ⟨u1, u2⟩ := hg _ (stages_mem hg1 hs).1
      exact gate_scalOut u1 u2 hn (gateData s hs) D h0 hx
    · have := D.single (by simp)
      simp only at h0
      rw [h0] at this
      simp at this
    · simp at hx
  · intro p hp x hx
    obtain ⟨t, ht, b, rfl, D⟩ := hP p hp
    simp only at hx
    rcases kinds t ht with ⟨s, hs, rfl⟩ | ⟨q, hq', rfl⟩ | ⟨q, hq', rfl⟩
    · obtain ⟨q, h1, rfl⟩ := List.mem_map.1 hx
      have hqq := touched s hs q h1
      by_cases hj : s.2 q = 0
      · rw [hj, e0]
        by_cases hqS : q ∈ Si
        · obtain ⟨p, hp, h3, -⟩ := hin _ (memI q hqS)
          exact Or.inr ⟨p, hp, by rw [h3]; simp⟩
        · exact Or.inl (List.mem_map.2 ⟨q, List.mem_filter.2 ⟨hqq, by simpa using hqS⟩, rfl⟩)
      · have := ((stages_mem hg1 hs).2 q).2 h1
        rw [← hc] at this
        exact Or.inr (prods q hqq _ hj (by omega))
    · simp at hx
    · rw [List.mem_singleton.1 hx, ← ec q (hSf q hq')]
      exact Or.inr (prods q (hSf q hq') _ (cpos q (hSf q hq')) le_rfl)
  · intro p hp x hx
    obtain ⟨t, ht, b, rfl, D⟩ := hP p hp
    simp only at hx
    rcases kinds t ht with ⟨s, hs, rfl⟩ | ⟨q, hq', rfl⟩ | ⟨q, hq', rfl⟩
    · obtain ⟨q, h1, rfl⟩ := List.mem_map.1 hx
      have hqq := touched s hs q h1
      have h2 := ((stages_mem hg1 hs).2 q).2 h1
      rw [← hc] at h2
      by_cases hj : s.2 q + 1 = c q
      · rw [hj, ec q hqq]
        by_cases hqS : q ∈ Sf
        · obtain ⟨p, hp, -, h3⟩ := hin _ (memF q hqS)
          exact Or.inr ⟨p, hp, by rw [h3]; simp⟩
        · exact Or.inl (List.mem_map.2 ⟨q, List.mem_filter.2 ⟨hqq, by simpa using hqS⟩, rfl⟩)
      · exact Or.inr (conss q hqq _ (by omega))
    · rw [List.mem_singleton.1 hx, ← e0 q]
      exact Or.inr (conss q (hSi q hq') 0 (Nat.pos_of_ne_zero (cpos q (hSi q hq'))))
    · simp at hx

end TNCO
