import Verif.Lemmas.TwisterUniform
import Verif.Props.Pickle

/-!
# C87: the generator of the optimizers

Seeds, texts and draws of `std::mt19937` as the optimizers use it. The apps draw their seeds below 2^32
(`rng.choices(range(2**32), k=n_runs)`), so that C87_seeds applies to them.
-/

namespace TNCO

/-! ## The state as text -/

/-- C87: the text that `prng_state` gives, passed as `seed`, restores the generator exactly, whatever state it is in. -/
theorem C87_restore (dev : ℕ) (e : Mt) (h : e.Ok) : Mt.ofSeed dev (.text e.dump) = .ok e := by
  unfold Mt.ofSeed
  dsimp only
  rw [h.restore (e0 := Mt.default) (seed_proper 5489).1]

/-- C87: the kind and number of the spaces does not matter, nor what comes after the position: a state that went through a file with
other ends of lines is restored. -/
theorem C87_spaces (dev : ℕ) (e : Mt) (h : e.Ok) (text : List ℕ) (ht : WrittenAs (e.words ++ [e.pos]) text) :
    Mt.ofSeed dev (.text text) = .ok e := by
  obtain ⟨r, h1, h2⟩ := readWords_written e.words e.pos
    (by intro w hw; rcases List.mem_append.1 hw with hw | hw
        · exact h.2.1 w hw
        · rw [List.mem_singleton.1 hw]; exact h.2.2)
    Mt.default.words (by rw [h.1]; exact (seed_proper _).1) text ht
  rw [Mt.ofSeed, Mt.read, h2]
  simp only [extract_written h.2.2 h1, Option.getD_some]

example (dev : ℕ) : Mt.ofSeed dev (.text (((Mt.seed 7).words ++ [624]).flatMap fun w => 13 :: 10 :: decText w)) = .ok (Mt.seed 7) :=
  C87_spaces dev (Mt.seed 7) (seed_proper 7).ok _ (written_lines _ _)

/-- C87: every generator that the constructor makes is one, and stays one. -/
theorem C87_state (dev : ℕ) (s : SeedArg) (e : Mt) (h : Mt.ofSeed dev s = .ok e) : e.Ok ∧ e.draw.2.Ok ∧ e.uniform.2.Ok := by
  have hok : e.Ok := by
    unfold Mt.ofSeed at h
    split at h
    · cases h; exact (seed_proper _).ok
    · split at h
      · cases h; exact (seed_proper _).ok
      · cases h
    · cases h; exact (seed_proper _).ok.read _
  exact ⟨hok, hok.draw, hok.uniform⟩

example : (Mt.seed 7).Ok ∧ (Mt.seed 7).draw.2.Ok := ⟨(seed_proper 7).ok, (seed_proper 7).ok.draw⟩

theorem again_eq (e : {e : Mt // e.Ok}) : e.1.again = some e := by
  unfold Mt.again
  rw [C87_restore 0 e.1 e.2]
  exact dif_pos e.2

section
variable {ι P R W : Type} [DecidableEq ι] [AddCommGroup R] [LinearOrder R] [IsOrderedAddMonoid R] [AddCommGroup W] [LinearOrder W]
  [IsOrderedAddMonoid W] [LinearOrder P]

/-- C87: an optimizer that goes through pickle, the generator as text, has the same future (with the generator of the code, and
no assumption on texts; compare C26_infinite_memory). -/
theorem C87_pickle (enum : Finset ι → List ι) (he : EnumOk enum) (cm : List ι → Dims → CostModel R) (path : List (ℕ × ℕ))
    (tsInds : List (List ι)) (hts : ∀ l ∈ tsInds, l.Nodup) (dims : PyDims ι) (output : Option (List ι)) (check : Bool) (t : PyTree ι)
    (ht : PyTree.ofPath enum path tsInds dims output check = .ok t) (seed : {e : Mt // e.Ok}) (dis : Bool)
    (probs : List (R → R → ℚ)) (o0 : PyInf ι {e : Mt // e.Ok} R) (o : InfOpt {e : Mt // e.Ok} R)
    (hpos : ∀ s, s ⊆ Finset.range t.core.nInds → 0 < (cm t.indsOrder t.core.dims).get s)
    (hmk : PyInf.make cm t seed dis none = .ok o0) (hrun : o0.core.run mtPrng (cm t.indsOrder t.core.dims) probs = some o) :
    ∃ o', PyInf.unpickleText enum cm ⟨o, o0.cache⟩ = .ok o' ∧ o'.core.ctree = o.ctree ∧ o'.core.prng = o.prng ∧
      ∀ future, o'.core.run mtPrng (cm t.indsOrder t.core.dims) future = o.run mtPrng (cm t.indsOrder t.core.dims) future := by
  obtain ⟨⟨t0, hwf, hex⟩, -⟩ := C10_core_exact enum he path tsInds hts dims output check t ht
  refine ⟨⟨o, o0.cache⟩, ?_, rfl, rfl, fun _ => rfl⟩
  unfold PyInf.unpickleText
  rw [again_eq]
  exact C26_infinite_memory_state enum he mtPrng cm t seed dis probs o0 o t0 _ (ofPath_tidy ht) hwf hex hpos hmk hrun

/-- C87: the same for the finite-width optimizer with no new slices, for any `shuffle`. -/
theorem C87_pickle_fw (enum : Finset ι → List ι) (he : EnumOk enum) (g : FwPrng {e : Mt // e.Ok} P) (cm : List ι → Dims → CostModel R)
    (wm : List ι → Dims → WidthModel W) (log2 : ℕ → W) (hlog : ∀ n, 0 ≤ log2 n) (path : List (ℕ × ℕ)) (tsInds : List (List ι))
    (hts : ∀ l ∈ tsInds, l.Nodup) (dims : PyDims ι) (output : Option (List ι)) (check : Bool) (t : PyTree ι)
    (ht : PyTree.ofPath enum path tsInds dims output check = .ok t) (seed : {e : Mt // e.Ok}) (dis : Bool) (skip : Finset ι)
    (ps : List ((R → R → P) × Bool)) (o0 : PyFw ι {e : Mt // e.Ok} R W) (o : FwOpt {e : Mt // e.Ok} R W)
    (hpos : ∀ s, s ⊆ Finset.range t.core.nInds → 0 < (cm t.indsOrder t.core.dims).get s)
    (hmodel : OfferedWidth log2 t.core.dims (wm t.indsOrder t.core.dims))
    (hmk : PyFw.make g cm wm t 0 seed dis skip none none none = .ok o0)
    (hrun : o0.core.run g (cm t.indsOrder t.core.dims) (wm t.indsOrder t.core.dims) ps = .ok o) :
    PyFw.unpickleText enum g cm wm ⟨o, o0.cache, o0.skip⟩ = .ok ⟨o, o0.cache, o0.skip⟩ := by
  unfold PyFw.unpickleText
  rw [again_eq]
  exact C26_finite_width_partial enum he g cm wm log2 hlog path tsInds hts dims output check t ht seed dis skip ps o0 o hpos hmodel hmk hrun

/-- A run of the tree of C26's examples with the generator of seed 7. -/
example : ∃ o0 o, PyInf.make pickCm pickT (⟨Mt.seed 7, (seed_proper 7).ok⟩ : {e : Mt // e.Ok}) false none = .ok o0 ∧
    o0.core.run mtPrng (pickCm pickT.indsOrder pickCT.dims) [fun _ _ => 1, fun _ _ => 1] = some o := by
  obtain ⟨o0, r, h1, h2, -⟩ := fw_eval
    (x := some (PyInf.make pickCm pickT (⟨Mt.seed 7, (seed_proper 7).ok⟩ : {e : Mt // e.Ok}) false none))
    (f := fun o => match o.core.run mtPrng (pickCm pickT.indsOrder pickCT.dims) [fun _ _ => 1, fun _ _ => 1] with
      | some a => .ok a
      | none => (.error () : Except Unit _))
    (Q := fun _ _ => true) (by decide +kernel)
  refine ⟨o0, r, Option.some.inj h1, ?_⟩
  split at h2
  · next h => cases h2; exact h
  · cases h2

end

/-! ## The numbers -/

/-- C87: a generator seeded with a number gives the sequence of the Mersenne twister: the first 624 words are made of the seed, the
others by the recurrence, and the draws are the words from number 624 on, with their bits mixed. -/
theorem C87_sequence (n : ℕ) : ∃ X, IsTwister X ∧ X 0 = n % 2 ^ 32 ∧
    (∀ k, k < 623 → X (k + 1) = ((X k ^^^ (X k / 2 ^ 30)) * 1812433253 + (k + 1)) % 2 ^ 32) ∧
    ∀ m, (Mt.seed n).draws m = (List.range m).map fun i => temper (X (624 + i)) := by
  obtain ⟨h1, h2⟩ := twisterOf_seed n
  exact ⟨twisterOf (Mt.seed n).words, twisterOf_is (seed_proper n).2.1, h1, h2,
    fun m => follows_draws (twisterOf_is (seed_proper n).2.1) m (proper_follows (seed_proper n))⟩

/-- C87: the number that the C++ standard demands as the 10000th draw of a generator that is not seeded. -/
theorem C87_standard : (Mt.default.after 9999).draw.1 = 4123659995 := by
  have hp := seed_proper 5489
  have hX := twisterOf_is hp.2.1
  have h0 := proper_follows hp
  have h1 := (follows_draw hX (follows_after hX 9999 h0)).1
  have e : (Mt.seed 5489).words = wordsFrom (twisterOf (Mt.seed 5489).words) 0 624 := by
    obtain ⟨b, g1, -, g3⟩ := h0
    have : b = 0 := by
      unfold Mt.seed at g3
      dsimp only at g3
      omega
    rw [wordsFrom_eq, ← this]
    exact g1
  have k := renewTimes_words hX 17 0 (fun x => temper (x.getD 15 0))
  rw [← e, wordsFrom_eq, List.getD_eq_getElem _ _ (by simp)] at k
  simp only [List.getElem_map, List.getElem_range] at k
  have c : renewTimes 17 (Mt.seed 5489).words (fun x => temper (x.getD 15 0)) = 4123659995 := by decide +kernel
  rw [c] at k
  unfold Mt.default
  rw [h1, k]
  congr 1

/-- C87: from a generator seeded with a number (or any with words of 32 bits) all draws have 32 bits, and words of 32 bits remain. -/
theorem C87_range (e : Mt) (h : e.Proper) : e.draw.1 < 2 ^ 32 ∧ e.draw.2.Proper := by
  have hX := twisterOf_is h.2.1
  obtain ⟨h1, h2⟩ := follows_draw hX (proper_follows h)
  exact ⟨by rw [h1]; exact temper_lt (hX.1 _), follows_proper hX h2⟩

/-- C87: numbers of `[0, 1)`, whatever the generator; 0 only if two draws are; for draws of 32 bits they are the two numbers side by side
as a binary fraction, up to 2^-53. -/
theorem C87_uniform (e : Mt) : 0 ≤ e.uniform.1 ∧ e.uniform.1 < 1 ∧ (e.uniform.1 = 0 ↔ e.draw.1 = 0 ∧ e.draw.2.draw.1 = 0) ∧
    (e.Proper → |e.uniform.1 - ((e.draw.1 + e.draw.2.draw.1 * 2 ^ 32 : ℕ) : ℚ) / 2 ^ 64| ≤ 1 / 2 ^ 53) := by
  obtain ⟨h1, h2⟩ := canonical_range e.draw.1 e.draw.2.draw.1
  refine ⟨h1, h2, canonical_zero _ _, fun h => ?_⟩
  obtain ⟨g1, g2⟩ := C87_range e h
  exact canonical_close g1 (C87_range _ g2).1

example : (Mt.seed 2026).Proper ∧ canonical 0 1 = 1 / 2 ^ 32 ∧ canonical (2 ^ 32 - 1) (2 ^ 32 - 1) = 1 - 1 / 2 ^ 53 :=
  ⟨seed_proper 2026, by decide +kernel, by decide +kernel⟩

/-- C87: `prng() % n` (the leaf of an update) is not quite uniform: among the 2^32 numbers, those for the first `2^32 % n` leaves
are one more than those for the others. -/
theorem C87_leaf (n k : ℕ) (hn : 0 < n) (hk : k < n) :
    (2 ^ 32).count (fun x => x % n = k) = 2 ^ 32 / n + if k < 2 ^ 32 % n then 1 else 0 := by
  generalize 2 ^ 32 = b
  have h := Nat.count_modEq_card (b := b) (r := n) hn k
  rw [Nat.mod_eq_of_lt hk] at h
  rw [← h]
  simp only [Nat.ModEq, Nat.mod_eq_of_lt hk]

/-- Three leaves: the first has one number more. -/
example : (2 ^ 32).count (fun x => x % 3 = 0) = 1431655766 ∧ (2 ^ 32).count (fun x => x % 3 = 1) = 1431655765 := by
  rw [C87_leaf 3 0 (by norm_num) (by norm_num), C87_leaf 3 1 (by norm_num) (by norm_num)]
  norm_num

/-! ## Seeds -/

/-- C87: generators that give the same 624 numbers after a renewal have the same words, but for the 31 lower bits of the first, which are
never used. -/
theorem C87_words (e e' : Mt) (h : e.Proper) (h' : e'.Proper) (hp : e.pos = 624) (hp' : e'.pos = 624)
    (hd : e.draws 624 = e'.draws 624) :
    e.words.getD 0 0 / 2 ^ 31 = e'.words.getD 0 0 / 2 ^ 31 ∧ ∀ i, 0 < i → i < 624 → e.words.getD i 0 = e'.words.getD i 0 := by
  have hX := twisterOf_is h.2.1
  have hY := twisterOf_is h'.2.1
  rw [follows_draws hX 624 (proper_follows h), follows_draws hY 624 (proper_follows h'), hp, hp'] at hd
  have key := twister_back hX hY 624 (by norm_num) (fun i hi => by
    have := congrArg (fun l => l.getD i 0) hd
    rw [List.getD_eq_getElem _ _ (by simpa using hi), List.getD_eq_getElem _ _ (by simpa using hi)] at this
    simp only [List.getElem_map, List.getElem_range] at this
    exact temper_inj this)
  obtain ⟨k1, k2⟩ := key
  refine ⟨?_, fun i h1 h2 => ?_⟩
  · rw [twisterOf, dif_pos (by norm_num), twisterOf, dif_pos (by norm_num)] at k1
    exact k1
  · have := k2 i h1 (by omega)
    rw [twisterOf, dif_pos h2, twisterOf, dif_pos h2] at this
    exact this

/-- C87: different seeds below 2^32 give different numbers, within the first 624 draws. -/
theorem C87_seeds (m n : ℕ) (hm : m < 2 ^ 32) (hn : n < 2 ^ 32) (h : (Mt.seed m).draws 624 = (Mt.seed n).draws 624) : m = n := by
  have hX := twisterOf_is (seed_proper m).2.1
  have hY := twisterOf_is (seed_proper n).2.1
  obtain ⟨a0, a1⟩ := twisterOf_seed m
  obtain ⟨b0, b1⟩ := twisterOf_seed n
  have e : ∀ n, (Mt.seed n).pos = 624 := fun n => by unfold Mt.seed; rfl
  have k := (C87_words _ _ (seed_proper m) (seed_proper n) (e m) (e n) h).2 1 (by norm_num) (by norm_num)
  have a2 := a1 0 (by norm_num)
  have b2 := b1 0 (by norm_num)
  rw [a0, Nat.mod_eq_of_lt hm, twisterOf, dif_pos (by norm_num)] at a2
  rw [b0, Nat.mod_eq_of_lt hn, twisterOf, dif_pos (by norm_num)] at b2
  rw [a2, b2] at k
  exact seed_inj_word hm hn k

example : (Mt.seed 1).draws 624 ≠ (Mt.seed 2).draws 624 := fun h => absurd (C87_seeds 1 2 (by norm_num) (by norm_num) h) (by norm_num)

/-- C87: a generator seeded with a number never gives 624 zeros in a row, however long it has run. -/
theorem C87_alive (n t : ℕ) : ((Mt.seed n).after t).draws 624 ≠ List.replicate 624 0 := by
  intro h
  have hX := twisterOf_is (seed_proper n).2.1
  have hf := follows_after hX t (proper_follows (seed_proper n))
  rw [follows_draws hX 624 hf] at h
  have e : (Mt.seed n).pos = 624 := by unfold Mt.seed; rfl
  rw [e] at h
  have key := twister_back hX zero_twister (624 + t) (by omega) (fun i hi => by
    have := congrArg (fun l => l.getD i 0) h
    rw [List.getD_eq_getElem _ _ (by simpa using hi), List.getD_eq_getElem _ _ (by rw [List.length_replicate]; exact hi)] at this
    simp only [List.getElem_map, List.getElem_range, List.getElem_replicate] at this
    exact temper_inj (this.trans temper_zero.symm))
  obtain ⟨-, k⟩ := key
  have k1 := k 1 (by omega) (by omega)
  have k2 := k 2 (by omega) (by omega)
  have a2 := (twisterOf_seed n).2 1 (by norm_num)
  rw [k1, show 1 + 1 = 2 from rfl, k2] at a2
  norm_num at a2

/-- **C87 is violated**: seeds are taken modulo 2^32, so that different seeds can give the same run; a negative one raises TypeError. -/
theorem C87_violated_seed (dev : ℕ) (z : ℤ) (h0 : 0 ≤ z) (h1 : z + 2 ^ 32 < 2 ^ 64) :
    Mt.ofSeed dev (.int z) = Mt.ofSeed dev (.int (z + 2 ^ 32)) ∧ (∃ e, Mt.ofSeed dev (.int z) = .ok e) ∧
      Mt.ofSeed dev (.int (-1 - z)) = .error .typeError := by
  have e : Mt.seed z.toNat = Mt.seed (z + 2 ^ 32).toNat := by
    obtain ⟨n, rfl⟩ := Int.eq_ofNat_of_zero_le h0
    have : ((n : ℤ) + 2 ^ 32).toNat = n + 2 ^ 32 := by omega
    rw [this, Int.toNat_natCast]
    unfold Mt.seed
    rw [Nat.add_mod_right]
  unfold Mt.ofSeed
  dsimp only
  rw [if_pos ⟨h0, by linarith⟩, if_pos ⟨by linarith, h1⟩, if_neg (by omega), e]
  exact ⟨rfl, ⟨_, rfl⟩, rfl⟩

example : Mt.ofSeed 0 (.int 0) = Mt.ofSeed 0 (.int 4294967296) := (C87_violated_seed 0 0 (by norm_num) (by norm_num)).1

/-- **C87 is violated**: a text that is no state is accepted without a word. If it does not begin with a number, the generator is the same
for all texts: that of the default seed with its first word set to 0; and the text of a number is not that number as a seed. -/
theorem C87_violated_text (dev : ℕ) :
    (∀ c cs, isBlank c = false → isNum c = false → c ≠ 43 → c ≠ 45 →
      Mt.ofSeed dev (.text (c :: cs)) = .ok ⟨0 :: Mt.default.words.drop 1, 624⟩) ∧
    (∀ n, n < 2 ^ 32 → Mt.ofSeed dev (.text (decText n)) = .ok ⟨n :: Mt.default.words.drop 1, 624⟩) ∧
    (∀ n, n < 2 ^ 32 → n ≠ 5489 → Mt.ofSeed dev (.text (decText n)) ≠ Mt.ofSeed dev (.int n)) := by
  obtain ⟨w, ws, hws⟩ : ∃ w ws, Mt.default.words = w :: ws := ⟨_, _, rfl⟩
  have hpos : Mt.default.pos = 624 := by unfold Mt.default Mt.seed; rfl
  have key : ∀ text v rest, extractNumber ⟨text, true⟩ = (some v, ⟨rest, false⟩) →
      Mt.default.read text = ⟨v :: Mt.default.words.drop 1, 624⟩ := by
    intro text v rest h
    unfold Mt.read
    rw [hws, readWords, h]
    dsimp only
    rw [readWords_bad, hpos]
    rfl
  have hnum : ∀ n, n < 2 ^ 32 → Mt.ofSeed dev (.text (decText n)) = .ok ⟨n :: Mt.default.words.drop 1, 624⟩ := by
    intro n hn
    unfold Mt.ofSeed
    dsimp only
    have := extract_dec (n := n) (lt_trans hn (by norm_num)) [] (by simp)
    rw [List.append_nil] at this
    rw [key _ n [] (by rw [this]; rfl)]
  refine ⟨fun c cs h1 h2 h3 h4 => ?_, hnum, fun n hn hne h => ?_⟩
  · unfold Mt.ofSeed
    dsimp only
    rw [key (c :: cs) 0 (c :: cs)]
    unfold extractNumber
    rw [if_neg (by simp)]
    dsimp only
    rw [List.dropWhile_cons_of_neg (by simp [h1])]
    dsimp only
    rw [if_neg (by simp [h3, h4]), List.takeWhile_cons_of_neg (by simp [h2]), List.dropWhile_cons_of_neg (by simp [h2])]
    rfl
  · rw [hnum n hn] at h
    unfold Mt.ofSeed at h
    dsimp only at h
    rw [if_pos ⟨by omega, by omega⟩, Int.toNat_natCast, Except.ok.injEq] at h
    have hw := congrArg (fun e => e.words.getD 1 0) h
    simp only [List.getD_cons_succ] at hw
    have hd : (Mt.default.words.drop 1).getD 0 0 = Mt.default.words.getD 1 0 := by rw [hws]; rfl
    rw [hd] at hw
    have a1 := (twisterOf_seed 5489).2 0 (by norm_num)
    have b1 := (twisterOf_seed n).2 0 (by norm_num)
    rw [(twisterOf_seed 5489).1, Nat.mod_eq_of_lt (show 5489 < 2 ^ 32 by norm_num), twisterOf, dif_pos (by norm_num)] at a1
    rw [(twisterOf_seed n).1, Nat.mod_eq_of_lt hn, twisterOf, dif_pos (by norm_num)] at b1
    unfold Mt.default at hw
    rw [a1, b1] at hw
    exact hne (seed_inj_word (by norm_num) hn hw).symm

/-- "seed" and "other" are the same seed; "42" is not 42. -/
example : Mt.ofSeed 0 (.text [115, 101, 101, 100]) = Mt.ofSeed 0 (.text [111, 116, 104, 101, 114]) ∧
    Mt.ofSeed 0 (.text (decText 42)) ≠ Mt.ofSeed 0 (.int 42) :=
  ⟨((C87_violated_text 0).1 115 _ rfl rfl (by norm_num) (by norm_num)).trans
    ((C87_violated_text 0).1 111 _ rfl rfl (by norm_num) (by norm_num)).symm, (C87_violated_text 0).2.2 42 (by norm_num) (by norm_num)⟩

/-- **C87 is violated**: a text may hold words that no seed gives. Zeros are a generator that only gives zeros. -/
theorem C87_violated_zero (dev : ℕ) : Mt.ofSeed dev (.text (Mt.dump ⟨List.replicate 624 0, 624⟩)) = .ok ⟨List.replicate 624 0, 624⟩ ∧
    ∀ n, Mt.draws n ⟨List.replicate 624 0, 624⟩ = List.replicate n 0 := by
  have hp : Mt.Proper ⟨List.replicate 624 0, 624⟩ := by
    refine ⟨List.length_replicate, fun w hw => ?_, le_refl _⟩
    rw [(List.mem_replicate.1 hw).2]
    norm_num
  refine ⟨C87_restore dev _ hp.ok, fun n => ?_⟩
  have hf : Mt.Follows (fun _ => 0) 624 ⟨List.replicate 624 0, 624⟩ := by
    refine ⟨0, ?_, le_refl _, by norm_num⟩
    rw [List.map_const', List.length_range]
  rw [follows_draws zero_twister n hf, List.map_const', List.length_range, temper_zero]

/-- **C87 is violated**: a text may hold words of more than 32 bits, and then a draw exceeds the largest number that the generator claims to
give. -/
theorem C87_violated_range (dev : ℕ) : ∃ e, Mt.ofSeed dev (.text (Mt.dump ⟨2 ^ 40 :: List.replicate 623 0, 0⟩)) = .ok e ∧ 2 ^ 32 ≤ e.draw.1 := by
  have hok : Mt.Ok ⟨2 ^ 40 :: List.replicate 623 0, 0⟩ := by
    refine ⟨by rw [List.length_cons, List.length_replicate], fun w hw => ?_, by norm_num⟩
    rcases List.mem_cons.1 hw with rfl | hw
    · norm_num
    · rw [(List.mem_replicate.1 hw).2]
      norm_num
  exact ⟨_, C87_restore dev _ hok, by decide +kernel⟩

/-- The state with which Greedy accepts a worse tree. -/
def badState : Mt := ⟨1 :: List.replicate 623 0, 0⟩

theorem badState_ok : badState.Ok := by
  unfold badState
  refine ⟨by rw [List.length_cons, List.length_replicate], fun w hw => ?_, by norm_num⟩
  rcases List.mem_cons.1 hw with rfl | hw
  · norm_num
  · rw [(List.mem_replicate.1 hw).2]
    norm_num

/-- **C17 is violated by the generator of the code**: seeded with a text, `Greedy` accepts a tree that costs more. -/
theorem C87_violated_greedy (dev : ℕ) : Mt.ofSeed dev (.text badState.dump) = .ok badState ∧
    ∃ o0 o1, InfOpt.make exModel exCT (⟨badState, badState_ok⟩ : {e : Mt // e.Ok}) false none = some (.ok o0) ∧
      o0.update mtPrng exModel probGreedy = some o1 ∧ o0.totalCost = 16 ∧ o1.totalCost = 24 := by
  refine ⟨C87_restore dev _ badState_ok, ?_⟩
  have := exists_of_eval (x := InfOpt.make exModel exCT (⟨badState, badState_ok⟩ : {e : Mt // e.Ok}) false none)
    (f := fun o => o.update mtPrng exModel probGreedy)
    (Q := fun a b => a.totalCost == 16 && b.totalCost == 24) (by decide +kernel)
  simpa using this

end TNCO
