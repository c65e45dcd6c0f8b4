import Verif.Lemmas.CircuitDecompose
import Verif.Lemmas.GateState
import Verif.Props.Fuse
import Verif.Props.Contract
import Verif.Props.Decompose
import Verif.Props.Circuit

/-! Putting together the network of a circuit. -/

namespace TNCO
variable {Q K : Type} [DecidableEq Q] [Field K] [StarRing K] [DecidableEq K]

/-- A network with axes of length 2 and the given entries. -/
structure NetValue {ι : Type} [DecidableEq ι] (F : List (NDArray K × List ι)) (op : List ι) (V : (ι → ℕ) → K) : Prop where
  shape : ∀ t ∈ F, t.1.shape = t.2.map fun _ => 2
  nodup : ∀ t ∈ F, t.2.Nodup
  sub : ∀ x ∈ op, x ∈ (F.map Prod.snd).flatten
  two : ∀ x ∈ (F.map Prod.snd).flatten, x ∉ op → 2 ≤ (F.map Prod.snd).flatten.count x
  value : ∀ l : List ι, l.Nodup → (∀ x, x ∈ l ↔ x ∈ (F.map Prod.snd).flatten ∧ x ∉ op) → ∀ f : ι → ℕ, (∀ x ∈ op, f x < 2) →
    sumOver (fun _ => 2) l (fun k => (F.map fun t => t.1.get (t.2.map k)).prod) f = V f

theorem sumOver_dims {ι R : Type} [DecidableEq ι] [CommSemiring R] {d d' : ι → ℕ} {l : List ι} (h : ∀ x ∈ l, d x = d' x) (Φ : (ι → ℕ) → R)
    (f : ι → ℕ) : sumOver d l Φ f = sumOver d' l Φ f := by
  induction l generalizing f with
  | nil => rfl
  | cons x l ih =>
    unfold sumOver
    rw [h x (by simp)]
    exact Finset.sum_congr rfl fun k _ => ih (fun y hy => h y (by simp [hy])) _

omit [DecidableEq K] [StarRing K] in
theorem exists_closed {ι : Type} [DecidableEq ι] (F : List (NDArray K × List ι)) (op : List ι) :
    ∃ l : List ι, l.Nodup ∧ ∀ x, x ∈ l ↔ x ∈ (F.map Prod.snd).flatten ∧ x ∉ op :=
  ⟨(uniqueEverseen (F.map Prod.snd).flatten).filter (· ∉ op), (uniqueEverseen_nodup _).filter _, fun x => by
    rw [List.mem_filter, mem_uniqueEverseen, decide_eq_true_eq]⟩

section
variable {gates : List (Gate Q K)} {qubits Si Sf : List Q} {v w : Q → Option (ℕ → K)} {ai af : Q → NDArray K}

/-- The open indices. -/
abbrev rawOpen (qubits Si Sf : List Q) : List (Q × Stage) := openQubits qubits ((Si.map fun q => (q, Stage.i)) ++ Sf.map fun q => (q, Stage.f))

omit [DecidableEq K] in
theorem raw_open_sub (hg : ∀ g ∈ gates, IsGate g) (hq : ∀ q, q ∈ qubits ↔ q ∈ gates.flatMap Prod.snd) (hi : StateArrays qubits Si v ai)
    (hf : StateArrays qubits Sf w af) : ∀ x ∈ rawOpen qubits Si Sf, x ∈ ((rawTs gates Si ai Sf af).map Prod.snd).flatten := by
  rintro ⟨q, t⟩ hx
  rw [mem_rawTs hg hq (fun q h => ((hi.mem q).1 h).1) fun q h => ((hf.mem q).1 h).1]
  obtain ⟨h1, ⟨rfl, -⟩ | ⟨rfl, -⟩⟩ := mem_openQubits.1 hx
  · exact ⟨q, 0, h1, Nat.zero_le _, (relabel_zero _ q).symm⟩
  · exact ⟨q, _, h1, le_rfl, (relabel_last (finalCount_pos ((hq q).1 h1))).symm⟩

omit [DecidableEq K] in
theorem raw_two (hg : ∀ g ∈ gates, IsGate g) (hq : ∀ q, q ∈ qubits ↔ q ∈ gates.flatMap Prod.snd) (hi : StateArrays qubits Si v ai)
    (hf : StateArrays qubits Sf w af) : ∀ x ∈ ((rawTs gates Si ai Sf af).map Prod.snd).flatten, x ∉ rawOpen qubits Si Sf →
      2 ≤ ((rawTs gates Si ai Sf af).map Prod.snd).flatten.count x := by
  intro x hx ho
  rw [mem_rawTs hg hq (fun q h => ((hi.mem q).1 h).1) fun q h => ((hf.mem q).1 h).1] at hx
  obtain ⟨q, j, hqm, hj, rfl⟩ := hx
  have split : ∀ l : List (NDArray K × List (Q × Stage) × List (Q × Stage)), ∀ z, ((l.map fun t => t.2.1 ++ t.2.2).flatten).count z =
      (l.map fun t => t.2.1).flatten.count z + (l.map fun t => t.2.2).flatten.count z := by
    intro l z
    induction l with
    | nil => rfl
    | cons t l ih =>
      simp only [List.map_cons, List.flatten_cons, List.count_append, ih]
      omega
  rw [rawTs_eq, List.map_map]
  simp only [Function.comp_def]
  rw [split]
  have hout : relabel (finalCount gates fun _ => 0) (q, j) ∈ ((rawIO gates Si ai Sf af).map fun t => t.2.1).flatten := by
    unfold rawIO
    by_cases hj0 : j = 0
    · subst hj0
      rw [relabel_zero] at ho ⊢
      have : q ∈ Si := by
        by_contra hS
        exact ho (mem_openQubits.2 ⟨hqm, Or.inl ⟨rfl, hS⟩⟩)
      refine List.mem_flatten.2 ⟨[(q, .i)], List.mem_map.2 ⟨(ai q, [(q, .i)], []), ?_, rfl⟩, by simp⟩
      exact List.mem_append.2 (Or.inr (List.mem_append.2 (Or.inl (List.mem_map.2 ⟨q, this, rfl⟩))))
    · obtain ⟨s, hs, h1, h2⟩ := stages_exists hg (c := fun _ => 0) (q := q) (j := j - 1) (Nat.zero_le _) (by omega)
      refine List.mem_flatten.2 ⟨_, List.mem_map.2 ⟨_, List.mem_append.2 (Or.inl (List.mem_map.2 ⟨s, hs, rfl⟩)), rfl⟩, ?_⟩
      refine List.mem_map.2 ⟨q, h1, ?_⟩
      rw [h2, Nat.sub_add_cancel (by omega)]
  have hin : relabel (finalCount gates fun _ => 0) (q, j) ∈ ((rawIO gates Si ai Sf af).map fun t => t.2.2).flatten := by
    unfold rawIO
    by_cases hj0 : j = finalCount gates (fun _ => 0) q
    · subst hj0
      rw [relabel_last (finalCount_pos ((hq q).1 hqm))] at ho ⊢
      have : q ∈ Sf := by
        by_contra hS
        exact ho (mem_openQubits.2 ⟨hqm, Or.inr ⟨rfl, hS⟩⟩)
      refine List.mem_flatten.2 ⟨[(q, .f)], List.mem_map.2 ⟨(starArray (af q), [], [(q, .f)]), ?_, rfl⟩, by simp⟩
      exact List.mem_append.2 (Or.inr (List.mem_append.2 (Or.inr (List.mem_map.2 ⟨q, this, rfl⟩))))
    · obtain ⟨s, hs, h1, h2⟩ := stages_exists hg (c := fun _ => 0) (q := q) (j := j) (Nat.zero_le _) (by omega)
      refine List.mem_flatten.2 ⟨_, List.mem_map.2 ⟨_, List.mem_append.2 (Or.inl (List.mem_map.2 ⟨s, hs, rfl⟩)), rfl⟩, ?_⟩
      refine List.mem_map.2 ⟨q, h1, ?_⟩
      rw [h2]
  have := List.count_pos_iff.2 hout
  have := List.count_pos_iff.2 hin
  omega

omit [DecidableEq K] in
theorem raw_netValue (hg : ∀ g ∈ gates, IsGate g) (hqn : qubits.Nodup) (hq : ∀ q, q ∈ qubits ↔ q ∈ gates.flatMap Prod.snd)
    (hi : StateArrays qubits Si v ai) (hf : StateArrays qubits Sf w af) :
    NetValue (rawTs gates Si ai Sf af) (rawOpen qubits Si Sf) fun f => amplitude gates qubits v w (fun q => f (q, .i)) fun q => f (q, .f) := by
  refine ⟨fun t ht => ?_, fun t ht => ?_, raw_open_sub hg hq hi hf, fun x hx ho => by convert raw_two hg hq hi hf x hx ho,
    fun l nl hl f hfb => raw_value hg hqn hq hi hf nl hl hfb⟩
  all_goals
    rw [rawTs_eq] at ht
    obtain ⟨t', ht', rfl⟩ := List.mem_map.1 ht
  · exact rawIO_shape hi hf ht'
  · exact rawIO_nodup hg ht'

theorem decompose_netValue (hg : ∀ g ∈ gates, IsGate g ∧ IsUnitary g) (hqn : qubits.Nodup) (hq : ∀ q, q ∈ qubits ↔ q ∈ gates.flatMap Prod.snd)
    (hi : StateArrays qubits Si v ai) (hf : StateArrays qubits Sf w af) {fuel : ℕ} {F : List (NDArray K × List (Q × Stage))}
    (h : decomposeOpen fuel (rawTs gates Si ai Sf af) (rawOpen qubits Si Sf) = some (.ok F)) :
    NetValue F (rawOpen qubits Si Sf) (fun f => amplitude gates qubits v w (fun q => f (q, .i)) fun q => f (q, .f)) ∧
      ∀ x ∈ (F.map Prod.snd).flatten, x ∈ ((rawTs gates Si ai Sf af).map Prod.snd).flatten := by
  have hg1 : ∀ g ∈ gates, IsGate g := fun g hgm => (hg g hgm).1
  have N := raw_netValue hg1 hqn hq hi hf
  obtain ⟨h1, h2, h3, h4, h4', h5⟩ := decomposeOpen_value N.shape N.nodup N.sub h (by
    intro ρ rs hrs hiff hid
    rw [rawTs_eq, List.forall₂_map_left_iff] at hrs
    obtain ⟨τ, W⟩ := raw_wires hg hq hi hf hrs
    have hlen := hrs.length_eq
    have hρ : ∀ f : Q × Stage → ℕ, (∀ p ∈ gadgets (rawIO gates Si ai Sf af) rs, Merged p.groups f) ↔
        ∀ x ∈ ((rawTs gates Si ai Sf af).map Prod.snd).flatten, f x = f (ρ x) := by
      intro f
      rw [← hiff]
      constructor
      · intro hh r hr
        obtain ⟨n, hn, rfl⟩ := List.mem_iff_getElem.1 hr
        refine hh ⟨(rawIO gates Si ai Sf af)[n].2.1, (rawIO gates Si ai Sf af)[n].2.2, _, _⟩
          (List.mem_map.2 ⟨((rawIO gates Si ai Sf af)[n], rs[n]), List.mem_iff_getElem.2 ⟨n, by simp; omega, by simp⟩, rfl⟩)
      · intro hh p hp
        obtain ⟨⟨t, r⟩, hz, rfl⟩ := List.mem_map.1 hp
        exact hh r (List.of_mem_zip hz).2
    have hA : ∀ x, x ∈ ((rawTs gates Si ai Sf af).map Prod.snd).flatten ↔ ∃ p ∈ gadgets (rawIO gates Si ai Sf af) rs, x ∈ p.outs ++ p.ins := by
      intro x
      rw [rawTs_eq, List.map_map, List.mem_flatten]
      constructor
      · rintro ⟨xs, hxs, hx⟩
        obtain ⟨t, ht, rfl⟩ := List.mem_map.1 hxs
        obtain ⟨r, hr⟩ := mem_zip_left hlen ht
        exact ⟨_, List.mem_map.2 ⟨_, hr, rfl⟩, hx⟩
      · rintro ⟨p, hp, hx⟩
        obtain ⟨⟨t, r⟩, hz, rfl⟩ := List.mem_map.1 hp
        exact ⟨_, List.mem_map.2 ⟨t, (List.of_mem_zip hz).1, rfl⟩, hx⟩
    refine ⟨fun x hx => ?_, fun r hr x hx y hy hxy => ?_, fun x hx => ?_⟩
    · by_cases hs : ∃ r ∈ rs, ∃ y ∈ r.1.2, ρ y = ρ x
      · exact Or.inl hs
      · right
        obtain ⟨⟨a, ha, ha1, -⟩, b, hb, hb1, -⟩ := W.survives hρ hid hA hx fun p hp y hy he => by
          obtain ⟨⟨t, r⟩, hz, rfl⟩ := List.mem_map.1 hp
          exact hs ⟨r, (List.of_mem_zip hz).2, y, hy, he⟩
        obtain ⟨q, hq1, rfl⟩ := List.mem_map.1 ha
        obtain ⟨q', hq2, rfl⟩ := List.mem_map.1 hb
        rw [List.mem_filter, decide_eq_true_eq] at hq1 hq2
        exact ⟨_, mem_openQubits.2 ⟨hq1.1, Or.inl ⟨rfl, hq1.2⟩⟩, _, mem_openQubits.2 ⟨hq2.1, Or.inr ⟨rfl, hq2.2⟩⟩, by simp, ha1, hb1⟩
    · obtain ⟨n, hn, rfl⟩ := List.mem_iff_getElem.1 hr
      refine W.kept_inj hρ (fun p hp x hx => (hA x).2 ⟨p, hp, hx⟩)
        (p := ⟨(rawIO gates Si ai Sf af)[n].2.1, (rawIO gates Si ai Sf af)[n].2.2, rs[n].1.2, rs[n].2⟩) ?_ hx hy hxy
      exact List.mem_map.2 ⟨((rawIO gates Si ai Sf af)[n], rs[n]), List.mem_iff_getElem.2 ⟨n, by simp; omega, by simp⟩, rfl⟩
    · by_cases hop : ∃ a ∈ rawOpen qubits Si Sf, ρ a = ρ x
      · exact Or.inl hop
      · right
        obtain ⟨p, hp, p', hp', hne, h1, h2⟩ := W.two hρ hid hA hx
          (fun a ha hax => hop (by
            obtain ⟨q, hq1, rfl⟩ := List.mem_map.1 ha
            rw [List.mem_filter, decide_eq_true_eq] at hq1
            exact ⟨_, mem_openQubits.2 ⟨hq1.1, Or.inl ⟨rfl, hq1.2⟩⟩, hax⟩))
          (fun a ha hax => hop (by
            obtain ⟨q, hq1, rfl⟩ := List.mem_map.1 ha
            rw [List.mem_filter, decide_eq_true_eq] at hq1
            exact ⟨_, mem_openQubits.2 ⟨hq1.1, Or.inr ⟨rfl, hq1.2⟩⟩, hax⟩))
        unfold gadgets at hp hp'
        obtain ⟨i, hi, rfl⟩ := List.mem_iff_getElem.1 hp
        obtain ⟨j, hj, rfl⟩ := List.mem_iff_getElem.1 hp'
        refine ⟨i, j, fun hij => hne (by subst hij; rfl), by simp at hi; omega, by simp at hj; omega, ?_, ?_⟩
        · simpa using h1
        · simpa using h2)
  refine ⟨⟨h1, h2, h3, h4', fun l' nl' hl' f hfb => ?_⟩, h4⟩
  obtain ⟨l, nl, hl⟩ := exists_closed (rawTs gates Si ai Sf af) (rawOpen qubits Si Sf)
  rw [← h5 l l' nl nl' hl hl' f hfb, N.value l nl hl f hfb]

end

/-- What `load` returns. -/
theorem fuse_netValue {ι σ W : Type} [DecidableEq ι] [Zero W] [Add W] [LT W] [DecidableLT W] {g : PyRng σ} (hg : g.Ok)
    {enumN : Finset ℕ → List ℕ} (heN : EnumOk enumN) {enum : Finset ι → List ι} (he : EnumOk enum) {log2 : ℕ → W} {fuel : ℕ} {s : σ}
    {F : List (NDArray K × List ι)} {op : List ι} {maxW : W} {V : (ι → ℕ) → K} (N : NetValue F op V)
    (hfuel : F.length + (uniqueEverseen (F.map Prod.snd).flatten).length < fuel) :
    ∃ arrs inds out, fuseNetwork g enumN enum log2 fuel s F op maxW = some (.ok (arrs, inds, out)) ∧ (∀ x, x ∈ out ↔ x ∈ op) ∧
      arrs.length = inds.length ∧ NetValue (arrs.zip inds) op V := by
  have hn : ∀ xs ∈ F.map Prod.snd, xs.Nodup := fun xs hxs => by obtain ⟨t, ht, rfl⟩ := List.mem_map.1 hxs; exact N.nodup t ht
  obtain ⟨path, fused, h1, h2, -, -, -, -⟩ := C30_fuse g hg enumN heN enum he s log2 (F.map Prod.snd) (.int 2) maxW (some op) [] hn (by simp)
    (fun _ => 2) (fun x _ => ⟨rfl, by norm_num⟩) N.sub
  have h1 := h1 fuel (by simpa using hfuel)
  have hc : Consistent (fun _ => 2) (F.map Prod.fst) (F.map Prod.snd) := by
    refine ⟨by simp, fun t ht => ?_⟩
    rw [zip_fst_snd] at ht
    exact N.shape t ht
  obtain ⟨⟨inds, out, arrs⟩, h3⟩ := (C31_succeeds enum he path (F.map Prod.snd) (some op) (F.map Prod.fst) none hn (fun _ => 2) hc
    (by simp) N.sub).1 h2
  obtain ⟨d, v1, v2, v3, v4, v5, v6, v7⟩ := C31_value enum he path (F.map Prod.snd) (some op) (F.map Prod.fst) none hn inds out arrs h3
  have v4 : ∀ x, x ∈ out ↔ x ∈ op := v4
  have hd : ∀ x ∈ (F.map Prod.snd).flatten, d x = 2 := by
    intro x hx
    obtain ⟨xs, hxs, hx⟩ := List.mem_flatten.1 hx
    obtain ⟨t, ht, rfl⟩ := List.mem_map.1 hxs
    have e1 := v1.2 t (by rw [zip_fst_snd]; exact ht)
    rw [N.shape t ht] at e1
    exact ((List.map_inj_left.1 e1) x hx).symm
  have hzip : ∀ t ∈ arrs.zip inds, t.2 ∈ inds := fun t ht => (List.of_mem_zip (show (t.1, t.2) ∈ _ from ht)).2
  have hsnd : (arrs.zip inds).map Prod.snd = inds := List.map_snd_zip (by rw [v2.1])
  have hdi : ∀ x ∈ inds.flatten, d x = 2 := fun x hx => hd x (v6 x hx)
  refine ⟨arrs, inds, out, ?_, v4, v2.1, ⟨fun t ht => ?_, fun t ht => v3 _ (hzip t ht), fun x hx => ?_, ?_, fun l' nl' hl' f hf => ?_⟩⟩
  · unfold fuseNetwork
    rw [h1]
    simp only [h3]
  · rw [v2.2 t ht]
    exact List.map_congr_left fun x hx => hdi x (List.mem_flatten.2 ⟨_, hzip t ht, hx⟩)
  · rw [hsnd]; exact v5 x ((v4 x).2 hx)
  · rw [hsnd]
    intro x hx hxo
    refine C31_no_dangling enum he path (F.map Prod.snd) (some op) (F.map Prod.fst) none hn inds out arrs h3 (fun y hy hyo => ?_) x hx
      fun h => hxo ((v4 x).1 h)
    exact N.two y hy fun h => hyo ((v4 y).2 h)
  · rw [hsnd] at hl'
    obtain ⟨l, nl, hl⟩ := exists_closed F op
    have e := v7 l l' nl nl' (fun x => by rw [hl, v4]) (fun x => by rw [hl', v4]) f fun x hx => by
      rw [hdi x (v5 x hx)]; exact hf x ((v4 x).1 hx)
    unfold einsum at e
    rw [zip_fst_snd] at e
    simp only [List.map_map, Function.comp_def] at e
    rw [← N.value l nl hl f hf]
    rw [sumOver_dims fun x hx => hdi x ((hl' x).1 hx).1, sumOver_dims fun x hx => hd x ((hl x).1 hx).1] at e
    exact e

omit [StarRing K] [DecidableEq K] [DecidableEq Q] in
theorem eye_isGate (q : Q) : IsGate (eyeGate (K := K) q) := ⟨by simp [eyeGate], by simp [eyeGate], by simp [eyeGate]⟩

omit [DecidableEq K] [DecidableEq Q] in
theorem eye_isUnitary (q : Q) : IsUnitary (eyeGate (K := K) q) := by
  intro r hr c hc
  simp only [eyeGate, List.length_singleton, pow_one] at hr hc ⊢
  have : r = 0 ∨ r = 1 := by omega
  have : c = 0 ∨ c = 1 := by omega
  rcases ‹r = 0 ∨ r = 1› with rfl | rfl <;> rcases ‹c = 0 ∨ c = 1› with rfl | rfl <;>
    simp [Finset.sum_range_succ, NDArray.get, ravel]

omit [StarRing K] [DecidableEq K] in
/-- The identity does nothing. -/
theorem eye_apply (q : Q) (ψ : (Q → ℕ) → K) {x : Q → ℕ} (hx : BitVals x) : applyGate (eyeGate q) ψ x = ψ x := by
  have he : ∀ i < 2, entry (eyeGate (K := K) q) x (Function.update x q i) = if x q = i then 1 else 0 := by
    intro i hi
    have hq := hx q
    unfold entry eyeGate NDArray.get
    simp only [List.map_cons, List.map_nil, Function.update_self, binVal, List.foldl_cons, List.foldl_nil, ravel, List.prod_cons, List.prod_nil]
    have : x q = 0 ∨ x q = 1 := by omega
    have : i = 0 ∨ i = 1 := by omega
    rcases ‹x q = 0 ∨ x q = 1› with h | h <;> rcases ‹i = 0 ∨ i = 1› with h' | h' <;> simp [h, h']
  unfold applyGate
  simp only [show (eyeGate (K := K) q).2 = [q] from rfl, sumOver]
  rw [Finset.sum_congr rfl fun i hi => by rw [he i (Finset.mem_range.1 hi)]]
  simp only [ite_mul, one_mul, zero_mul, Finset.sum_ite_eq, Finset.mem_range]
  rw [if_pos (hx q), Function.update_eq_self]

omit [StarRing K] [DecidableEq K] in
theorem run_eyes (l : List Q) (ψ : (Q → ℕ) → K) {x : Q → ℕ} (hx : BitVals x) : runCircuit (l.map eyeGate) ψ x = ψ x := by
  unfold runCircuit
  induction l generalizing ψ with
  | nil => rfl
  | cons q l ih => rw [List.map_cons, List.foldl_cons, ih, eye_apply q ψ hx]

theorem rawNetwork_ok {r : K} (hr : star r * r + star r * r = 1) {gates : List (Gate Q K)} (hg : ∀ g ∈ gates, IsGate g) {qubits : List Q}
    (hqn : qubits.Nodup) {init fin : PyState Q K} (h1 : StateOk r qubits init) (h2 : StateOk r qubits fin) :
    ∃ Si ai Sf af, rawNetwork r gates qubits init fin = .ok (rawTs gates Si ai Sf af, rawOpen qubits Si Sf) ∧
      StateArrays qubits Si (stateOf r init) ai ∧ StateArrays qubits Sf (stateOf r fin) af := by
  obtain ⟨Si, ai, a1, a2, a3, a4⟩ := getState_ok hr hqn .i h1
  obtain ⟨Sf, af, b1, b2, b3, b4⟩ := getState_ok hr hqn .f h2
  refine ⟨Si, ai, Sf, af, ?_, ⟨a2, a3, a4⟩, ⟨b2, b3, b4⟩⟩
  unfold rawNetwork
  rw [buildLoop_ok hg, a1, b1]
  simp only [List.map_append, List.map_map, Function.comp_def]
  rfl

/-- The number of tensors after the decomposition. -/
theorem decomposeOpen_length {ι : Type} [DecidableEq ι] {fuel : ℕ} {ts F : List (NDArray K × List ι)} {op : List ι}
    (hs : ∀ t ∈ ts, t.1.shape = t.2.map fun _ => 2) (hn : ∀ t ∈ ts, t.2.Nodup) (h : decomposeOpen fuel ts op = some (.ok F)) :
    F.length ≤ ts.length + op.length := by
  unfold decomposeOpen at h
  cases hdn : decomposeNetwork fuel (ts.map Prod.fst) (ts.map Prod.snd) with
  | none => rw [hdn] at h; simp at h
  | some o =>
    cases o with
    | error e => rw [hdn] at h; simp at h
    | ok res =>
      obtain ⟨arrs, new, hmap⟩ := res
      rw [hdn] at h
      simp only [Option.some.injEq, Except.ok.injEq] at h
      have hcons : Consistent (fun _ => 2) (ts.map Prod.fst) (ts.map Prod.snd) := by
        refine ⟨by simp, fun t ht => ?_⟩
        rw [zip_fst_snd] at ht
        exact hs t ht
      obtain ⟨ρ, rs, N, -⟩ := decomposeNetwork_detail hcons
        (fun xs hxs => by obtain ⟨t, ht, rfl⟩ := List.mem_map.1 hxs; exact hn t ht) hdn
      have hl := N.length
      rw [List.length_map] at hl
      rw [← h, List.length_append, List.length_zip, List.length_map, List.length_map]
      have : (deltaInds (remapOpen hmap op).1 op).length ≤ op.length := by
        unfold deltaInds
        simp only [List.length_map]
        refine (List.subperm_of_subset (uniqueEverseen_nodup _) fun y hy => ?_).length_le
        rw [mem_uniqueEverseen] at hy
        obtain ⟨e, he, rfl⟩ := List.mem_map.1 hy
        have := (List.mem_filter.1 he).2
        simp only [decide_eq_true_eq] at this
        exact this.2.1
      omega

omit [DecidableEq K] [Field K] [StarRing K] in
theorem qubits_length (circuit : List (Gate Q K)) :
    (uniqueEverseen (circuit.flatMap Prod.snd)).length ≤ (circuit.map fun g => g.2.length).sum := by
  rw [← List.length_flatMap]
  exact (List.subperm_of_subset (uniqueEverseen_nodup _) fun y hy => mem_uniqueEverseen.1 hy).length_le

omit [DecidableEq K] in
/-- The size of the network. -/
theorem rawTs_size (gates : List (Gate Q K)) (Si : List Q) (ai : Q → NDArray K) (Sf : List Q) (af : Q → NDArray K) :
    (rawTs gates Si ai Sf af).length = gates.length + Si.length + Sf.length ∧
      ((rawTs gates Si ai Sf af).map Prod.snd).flatten.length = 2 * (gates.map fun g => g.2.length).sum + Si.length + Sf.length := by
  have h : ∀ (gates : List (Gate Q K)) (c : Q → ℕ), (buildTs gates c).length = gates.length ∧
      ((buildTs gates c).map fun t => t.2.length).sum = 2 * (gates.map fun g => g.2.length).sum := by
    intro gates
    induction gates with
    | nil => intro c; exact ⟨rfl, rfl⟩
    | cons g rest ih =>
      intro c
      obtain ⟨h1, h2⟩ := ih (bump c g)
      unfold buildTs
      simp only [List.length_cons, List.map_cons, List.sum_cons, h1, h2, true_and]
      unfold gateTensor
      simp only [List.length_append, List.length_map]
      omega
  obtain ⟨h1, h2⟩ := h gates fun _ => 0
  unfold rawTs
  constructor
  · simp only [List.length_append, List.length_map, h1]
    omega
  · rw [List.length_flatten]
    simp only [List.map_append, List.map_map, Function.comp_def, List.sum_append, List.length_map, h2, List.length_singleton, List.map_const',
      List.sum_replicate, smul_eq_mul, mul_one]
    omega

/-- Other states are rejected. -/
theorem getState_error {r : K} {qubits : List Q} {tag : Stage} {st : PyState Q K} (hd : ∀ l, st = .dict l → (l.map Prod.fst).Nodup)
    (h : ¬ StateOk r qubits st) : ∃ e, (e = .valueError ∨ e = .notImplemented) ∧ getState r qubits tag st = .error e := by
  cases st with
  | none => exact absurd trivial h
  | other => exact ⟨_, Or.inr rfl, rfl⟩
  | str s =>
    refine ⟨_, Or.inr rfl, ?_⟩
    have hs : s ∉ ["0", "1", "+", "-"] := h
    simp only [List.mem_cons, List.not_mem_nil, or_false, not_or] at hs
    simp only [getState, validToken]
    rw [if_neg hs.1, if_neg hs.2.1, if_neg hs.2.2.1, if_neg hs.2.2.2]
  | dict l =>
    refine ⟨_, Or.inl rfl, ?_⟩
    simp only [getState]
    cases hm : l.mapM fun e => (stateArray r e.2).map fun a => (e.1, a) with
    | none => rfl
    | some l' =>
      simp only
      rw [if_neg]
      intro hall
      refine h ⟨hd l rfl, fun e he => ?_⟩
      obtain ⟨e', he', hee⟩ : ∃ e' ∈ l', (stateArray r e.2).map (fun a => (e.1, a)) = some e' := by
        clear h hall hd
        induction l generalizing l' with
        | nil => simp at he
        | cons a l ih =>
          rw [List.mapM_cons] at hm
          cases h1 : (stateArray r a.2).map fun b => (a.1, b) with
          | none => rw [h1] at hm; simp at hm
          | some b =>
            cases h2 : l.mapM fun e => (stateArray r e.2).map fun a => (e.1, a) with
            | none => rw [h1, h2] at hm; simp at hm
            | some bs =>
              rw [h1, h2] at hm
              obtain rfl : b :: bs = l' := by simpa using hm
              rcases List.mem_cons.1 he with rfl | he
              · exact ⟨b, by simp, h1⟩
              · obtain ⟨e', h3, h4⟩ := ih bs h2 he
                exact ⟨e', by simp [h3], h4⟩
      cases hv : e.2 with
      | token s =>
        rw [hv] at hee
        by_contra hs
        simp only [List.mem_cons, List.not_mem_nil, or_false, not_or] at hs
        simp only [stateArray, validToken] at hee
        rw [if_neg hs.1, if_neg hs.2.1, if_neg hs.2.2.1, if_neg hs.2.2.2] at hee
        simp at hee
      | vec a =>
        rw [hv] at hee
        simp only [stateArray, Option.map_some, Option.some.injEq] at hee
        subst hee
        intro hq
        obtain ⟨h1, h2⟩ := hall ((e.1, tag), a) (List.mem_map.2 ⟨_, List.mem_filter.2 ⟨he', by simpa using hq⟩, rfl⟩)
        refine ⟨h1, ?_⟩
        unfold NDArray.get
        rw [h1]
        simpa [ravel] using h2

/-- `getState` raises two exceptions only. -/
theorem getState_cases (r : K) (qubits : List Q) (tag : Stage) (st : PyState Q K) :
    (∃ s, getState r qubits tag st = .ok s) ∨ ∃ e, (e = .valueError ∨ e = .notImplemented) ∧ getState r qubits tag st = .error e := by
  cases st with
  | none => exact Or.inl ⟨_, rfl⟩
  | other => exact Or.inr ⟨_, Or.inr rfl, rfl⟩
  | str s =>
    simp only [getState]
    cases validToken r s with
    | none => exact Or.inr ⟨_, Or.inr rfl, rfl⟩
    | some a => exact Or.inl ⟨_, rfl⟩
  | dict l =>
    simp only [getState]
    split
    · exact Or.inr ⟨_, Or.inl rfl, rfl⟩
    · split
      · exact Or.inl ⟨_, rfl⟩
      · exact Or.inr ⟨_, Or.inl rfl, rfl⟩

end TNCO
