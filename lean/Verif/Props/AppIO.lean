import Verif.Model.AppIO
import Mathlib.Data.List.Forall2

/-!
# C50, C56: the choice of the optimizer, `dump_results` and `load_file`
-/

namespace TNCO

/-- C50: the optimizer for a finite width is chosen exactly if a width is given that is smaller than infinity. -/
theorem C50_dispatch (w : WidthArg) : finiteWidthModule w = true ↔ w = .negInf ∨ ∃ q, w = .num q := by
  cases w <;> simp [finiteWidthModule, WidthArg.ltInf]

section
variable {T R : Type} (env : DumpEnv T R) (a : DumpArgs)

/-- The format that is asked for. -/
def DumpArgs.wants (fmt : List ℕ) : Prop :=
  match a.format with
  | none => fmt = rawText
  | some f => fmt = env.lower f

/-- The arguments are in order. -/
structure DumpArgsOk : Prop where
  extra : a.extra = false
  format : ∃ fmt, a.wants env fmt ∧ (fmt = rawText ∨ fmt = jsonText)
  filename : ∀ f, a.filename = some f → (f ≠ [] → env.valid f = true) ∧ (a.overwrite = false → env.present f = false)
  compression : env.lower a.compression ∈ [autoText, noneText, bz2Text, gzipText]

theorem wants_iff (x : List ℕ) : a.wants env x ↔ x = dumpFormat env a := by
  unfold DumpArgs.wants dumpFormat
  cases a.format <;> rfl

theorem wants_unique {x y : List ℕ} (hx : a.wants env x) (hy : a.wants env y) : x = y := by
  rw [(wants_iff env a x).1 hx, (wants_iff env a y).1 hy]

theorem badFilename_false : badFilename env a = false ↔ ∀ f, a.filename = some f → f ≠ [] → env.valid f = true := by
  unfold badFilename
  cases h : a.filename with
  | none => simp
  | some f =>
    simp only [Option.some.injEq, forall_eq', Bool.and_eq_false_iff, decide_eq_false_iff_not, not_not, Bool.not_eq_false']
    exact ⟨fun h hf => h.resolve_left hf, fun h => or_iff_not_imp_left.2 h⟩

theorem fileTaken_false : fileTaken env a = false ↔ ∀ f, a.filename = some f → a.overwrite = false → env.present f = false := by
  unfold fileTaken
  cases h : a.filename with
  | none => simp
  | some f =>
    simp only [Option.some.injEq, forall_eq']
    cases a.overwrite <;> simp

/-- The check, with the format by its specification. -/
theorem dumpCheck_ok_iff (fmt comp : List ℕ) (fn : Option (List ℕ)) :
    dumpCheck env a = .ok (fmt, fn, comp) ↔ DumpArgsOk env a ∧ a.wants env fmt ∧ fn = a.filename ∧ comp = env.lower a.compression := by
  have hw : a.wants env (dumpFormat env a) := (wants_iff env a _).2 rfl
  have hfn1 := badFilename_false env a
  have hfn2 := fileTaken_false env a
  have hne : env.lower a.compression ∈ [autoText, noneText, bz2Text, gzipText] → ¬ (env.lower a.compression ∉ [autoText, noneText] ∧ env.lower a.compression = []) := by
    rintro h ⟨-, h'⟩
    rw [h'] at h
    revert h
    decide
  constructor
  · intro h
    unfold dumpCheck at h
    split at h
    · cases h
    next h1 =>
    split at h
    · cases h
    next h2 =>
    split at h
    · cases h
    next h3 =>
    split at h
    · cases h
    next h4 =>
    split at h
    · cases h
    next h5 =>
    split at h
    · cases h
    simp only [Except.ok.injEq, Prod.mk.injEq] at h
    obtain ⟨rfl, rfl, rfl⟩ := h
    refine ⟨⟨by simpa using h1, ⟨_, hw, ?_⟩, ?_, not_not.1 h5⟩, hw, rfl, rfl⟩
    · have := not_not.1 h2
      simpa using this
    · intro f hf
      exact ⟨hfn1.1 (by simpa using h3) f hf, hfn2.1 (by simpa using h4) f hf⟩
  · rintro ⟨hok, hf, rfl, rfl⟩
    have e := wants_unique env a hw hf
    obtain ⟨fmt', hw', hfmt⟩ := hok.format
    have e' := wants_unique env a hf hw'
    subst e'
    unfold dumpCheck
    rw [if_neg (by simp [hok.extra]), if_neg (by rw [e, not_not]; simpa using hfmt), if_neg (by rw [hfn1.2 fun f h => (hok.filename f h).1]; simp),
      if_neg (by rw [hfn2.2 fun f h => (hok.filename f h).2]; simp), if_neg (not_not.2 hok.compression), if_neg (hne hok.compression), e]

/-- C50: the check that is made when an optimizer is created accepts exactly the arguments that are in order. -/
theorem C50_dump_check (tn : T) (res : List R) :
    (dumpResults env { a with checkOnly := true } tn res = .ok .nothing ↔ DumpArgsOk env a) ∧
    (¬ DumpArgsOk env a → ∃ e, dumpResults env { a with checkOnly := true } tn res = .error e) := by
  have hok : DumpArgsOk env { a with checkOnly := true } ↔ DumpArgsOk env a :=
    ⟨fun h => ⟨h.extra, h.format, h.filename, h.compression⟩, fun h => ⟨h.extra, h.format, h.filename, h.compression⟩⟩
  unfold dumpResults
  cases h : dumpCheck env { a with checkOnly := true } with
  | error e =>
    refine ⟨⟨(by intro h; cases h), fun h' => ?_⟩, fun _ => ⟨e, rfl⟩⟩
    obtain ⟨fmt, hw, -⟩ := h'.format
    rw [(dumpCheck_ok_iff env _ fmt _ _).2 ⟨hok.2 h', hw, rfl, rfl⟩] at h
    cases h
  | ok p =>
    obtain ⟨fmt, fn, comp⟩ := p
    have := hok.1 ((dumpCheck_ok_iff env _ fmt comp fn).1 h).1
    exact ⟨⟨fun _ => this, fun _ => rfl⟩, fun h' => absurd this h'⟩

/-- C50: which exception is raised: `FileExistsError` exactly if the other arguments before it are in order, the file is there and must not be overwritten; `TypeError` exactly
for other keyword arguments. -/
theorem C50_dump_errors (e : AppErr) (h : dumpCheck env a = .error e) :
    (e = .typeError ↔ a.extra = true) ∧ (e = .typeError ∨ e = .valueError ∨ e = .fileExists) ∧
    (e = .fileExists → a.overwrite = false ∧ ∃ f, a.filename = some f ∧ env.present f = true) := by
  unfold dumpCheck at h
  split at h
  · next h1 => cases h; simp [h1]
  next h1 =>
  split at h
  · cases h; simp [h1]
  split at h
  · cases h; simp [h1]
  split at h
  · next h4 =>
    cases h
    refine ⟨by simp [h1], by simp, fun _ => ?_⟩
    unfold fileTaken at h4
    split at h4
    · simp at h4
    · next f hf => simp at h4; exact ⟨h4.1, f, hf, h4.2⟩
  split at h
  · cases h; simp [h1]
  split at h
  · cases h; simp [h1]
  · cases h

theorem joinRes_iff (res : List R) (s : List ℕ) :
    joinRes env res = .ok s ↔ ∃ rs, List.Forall₂ (fun r t => env.resJson r = .ok t) res rs ∧ s = [44, 32].intercalate rs := by
  induction res generalizing s with
  | nil =>
    simp only [joinRes, Except.ok.injEq, List.forall₂_nil_left_iff]
    exact ⟨fun h => ⟨[], rfl, by rw [← h]; rfl⟩, fun ⟨_, h1, h2⟩ => by rw [h2, h1]; rfl⟩
  | cons r res ih =>
    cases res with
    | nil =>
      simp only [joinRes]
      constructor
      · intro h
        exact ⟨[s], .cons h .nil, by simp [List.intercalate]⟩
      · rintro ⟨rs, h, rfl⟩
        obtain ⟨t, ts, h1, h2, rfl⟩ := List.forall₂_cons_left_iff.1 h
        rw [List.forall₂_nil_left_iff.1 h2, h1]
        simp [List.intercalate]
    | cons r' res =>
      rw [joinRes]
      constructor
      · intro h
        split at h
        · cases h
        next t h1 =>
        split at h
        · cases h
        next u h2 =>
        cases h
        obtain ⟨rs, h3, rfl⟩ := (ih u).1 h2
        refine ⟨t :: rs, .cons h1 h3, ?_⟩
        obtain ⟨t', ts', -, -, rfl⟩ := List.forall₂_cons_left_iff.1 h3
        simp [List.intercalate, List.intersperse]
      · rintro ⟨rs, h, rfl⟩
        obtain ⟨t, ts, h1, h2, rfl⟩ := List.forall₂_cons_left_iff.1 h
        rw [h1, (ih _).2 ⟨ts, h2, rfl⟩]
        obtain ⟨t', ts', -, -, rfl⟩ := List.forall₂_cons_left_iff.1 h2
        simp [List.intercalate, List.intersperse]

/-- The characters of a string of ASCII characters. -/
def chars (s : String) : List ℕ := s.toList.map Char.toNat

/-- `s` is the JSON text of the results. -/
def IsDumpJson (tn : T) (res : List R) (s : List ℕ) : Prop :=
  ∃ t rs, env.tnJson tn = .ok t ∧ List.Forall₂ (fun r t => env.resJson r = .ok t) res rs ∧
    s = chars "{\"tn\" : " ++ t ++ chars ", \"res\" : [" ++ (chars ", ").intercalate rs ++ chars "]}"

theorem dumpJson_iff (tn : T) (res : List R) (s : List ℕ) : dumpJson env tn res = .ok s ↔ IsDumpJson env tn res s := by
  have c1 : chars "{\"tn\" : " = [123, 34, 116, 110, 34, 32, 58, 32] := by decide
  have c2 : chars ", \"res\" : [" = [44, 32, 34, 114, 101, 115, 34, 32, 58, 32] ++ [91] := by decide
  have c3 : chars "]}" = [93] ++ [125] := by decide
  have c4 : chars ", " = [44, 32] := by decide
  unfold dumpJson IsDumpJson
  rw [c1, c2, c3, c4]
  constructor
  · intro h
    split at h
    · cases h
    next t h1 =>
    split at h
    · cases h
    next u h2 =>
    cases h
    obtain ⟨rs, h3, rfl⟩ := (joinRes_iff env res u).1 h2
    exact ⟨t, rs, h1, h3, by simp [List.append_assoc]⟩
  · rintro ⟨t, rs, h1, h2, rfl⟩
    rw [h1, (joinRes_iff env res _).2 ⟨rs, h2, rfl⟩]
    simp [List.append_assoc]

theorem nameSuffix_iff (n e : List ℕ) : nameSuffix n = 46 :: e ↔ e ≠ [] ∧ 46 ∉ e ∧ ∃ p, p ≠ [] ∧ n = p ++ 46 :: e := by
  have key : ∀ (q e : List ℕ), 46 ∉ e → ((q ++ 46 :: e).reverse.takeWhile (· ≠ 46)).reverse = e := by
    intro q e he
    rw [List.reverse_append, List.reverse_cons, List.append_assoc, List.takeWhile_append_of_pos]
    · simp
    · intro x hx
      simp only [List.mem_reverse] at hx
      simp only [decide_eq_true_eq]
      rintro rfl
      exact he hx
  constructor
  · intro h
    unfold nameSuffix at h
    split at h
    · cases h
    next h0 =>
    push Not at h0
    simp only [List.cons.injEq, true_and] at h
    subst h
    obtain ⟨t, ht⟩ : ∃ t, n.reverse.takeWhile (· ≠ 46) = t := ⟨_, rfl⟩
    obtain ⟨d, hd⟩ : ∃ d, n.reverse.dropWhile (· ≠ 46) = d := ⟨_, rfl⟩
    have hn : n.reverse = t ++ d := by rw [← ht, ← hd, List.takeWhile_append_dropWhile]
    have hn' : n = d.reverse ++ t.reverse := by rw [← List.reverse_append, ← hn, List.reverse_reverse]
    have ht46 : 46 ∉ t := by
      intro hm
      have := List.all_takeWhile (p := fun x : ℕ => decide (x ≠ 46)) (l := n.reverse)
      rw [ht, List.all_eq_true] at this
      have := this 46 hm
      simp at this
    rw [ht] at h0 ⊢
    refine ⟨h0.1, by rwa [List.mem_reverse], ?_⟩
    cases d with
    | nil =>
      have := h0.2
      rw [hn'] at this
      simp at this
      omega
    | cons c r =>
      have hc : c = 46 := by
        have := List.head?_dropWhile_not (fun x : ℕ => decide (x ≠ 46)) n.reverse
        rw [hd] at this
        simpa using this
      subst hc
      refine ⟨r.reverse, ?_, by rw [hn']; simp⟩
      intro hr
      rw [List.reverse_eq_nil_iff] at hr
      have := h0.2
      rw [hn', hr] at this
      simp at this
  · rintro ⟨he, hd, p, hp, rfl⟩
    unfold nameSuffix
    rw [key p e hd, if_neg]
    push Not
    refine ⟨he, ?_⟩
    have : 0 < p.length := List.length_pos_iff.2 hp
    simp only [List.length_append, List.length_cons]
    omega

theorem drop_suffix (n e : List ℕ) (he : e ≠ []) : (nameSuffix n).drop 1 = e ↔ nameSuffix n = 46 :: e := by
  constructor
  · intro h
    unfold nameSuffix at h ⊢
    split at h
    · exact absurd h.symm he
    · next h0 => rw [if_neg h0]; simpa using h
  · intro h; rw [h]; rfl

/-- C50: when a file is compressed: if asked for, or if this is left open and the name of the file ends with `.gzip` or `.bz2`. -/
theorem C50_compression (f : List ℕ) (comp : List ℕ) :
    (chooseCompress f comp = .gzip ↔ comp = chars "gzip" ∨ comp = chars "auto" ∧ ∃ p, p ≠ [] ∧ pathName f = p ++ chars ".gzip") ∧
    (chooseCompress f comp = .bz2 ↔ comp = chars "bz2" ∨ comp = chars "auto" ∧ ∃ p, p ≠ [] ∧ pathName f = p ++ chars ".bz2") := by
  have c1 : chars "gzip" = gzipText := by decide
  have c2 : chars "auto" = autoText := by decide
  have c3 : chars ".gzip" = 46 :: gzipText := by decide
  have c4 : chars "bz2" = bz2Text := by decide
  have c5 : chars ".bz2" = 46 :: bz2Text := by decide
  have g : ∀ e, e ≠ [] → 46 ∉ e → ((nameSuffix (pathName f)).drop 1 = e ↔ ∃ p, p ≠ [] ∧ pathName f = p ++ 46 :: e) := by
    intro e he hd
    rw [drop_suffix _ _ he, nameSuffix_iff]
    simp [he, hd]
  have hne : gzipText ≠ bz2Text := by decide
  have hag : autoText ≠ gzipText := by decide
  have hab : autoText ≠ bz2Text := by decide
  rw [c1, c2, c3, c4, c5, ← g gzipText (by decide) (by decide), ← g bz2Text (by decide) (by decide)]
  unfold chooseCompress
  simp only
  by_cases hc : comp = autoText
  · subst hc
    rw [if_pos rfl]
    refine ⟨⟨fun h => Or.inr ⟨rfl, ?_⟩, ?_⟩, ⟨fun h => Or.inr ⟨rfl, ?_⟩, ?_⟩⟩
    · split at h
      · next h1 => exact h1
      · split at h <;> cases h
    · rintro (h | ⟨-, h⟩)
      · exact absurd h hag
      · rw [if_pos h]
    · split at h
      · cases h
      · split at h
        · next h1 => exact h1
        · cases h
    · rintro (h | ⟨-, h⟩)
      · exact absurd h hab
      · rw [if_neg (by rw [h]; exact hne.symm), if_pos h]
  · rw [if_neg hc]
    refine ⟨⟨fun h => Or.inl ?_, ?_⟩, ⟨fun h => Or.inl ?_, ?_⟩⟩
    · split at h
      · next h1 => exact h1
      · split at h <;> cases h
    · rintro (h | ⟨h, -⟩)
      · rw [if_pos h]
      · exact absurd h hc
    · split at h
      · cases h
      · split at h
        · next h1 => exact h1
        · cases h
    · rintro (h | ⟨h, -⟩)
      · rw [if_neg (by rw [h]; exact hne.symm), if_pos h]
      · exact absurd h hc

/-- The bytes that are to be in the file: of the JSON text or of the pickle. -/
def DumpBytes (tn : T) (res : List R) (b : List ℕ) : Prop :=
  (a.wants env jsonText ∧ ∃ s, IsDumpJson env tn res s ∧ b = env.encode s) ∨ (a.wants env rawText ∧ b = env.pickle (tn, res))

/-- C50, what is missing: with compression asked for and no file name there is no error, see `C50_violated`.

If the arguments are in order, the results are returned as they are or as a JSON text if there is no file name; otherwise the JSON text or the pickle
is written to the file, compressed as in `C50_compression`. -/
theorem C50_dump_partial (hc : a.checkOnly = false) (tn : T) (res : List R) (o : DumpOut T R) :
    dumpResults env a tn res = .ok o ↔ DumpArgsOk env a ∧
      ((a.filename = none ∧ (a.wants env rawText ∧ o = .object (tn, res) ∨ a.wants env jsonText ∧ ∃ s, IsDumpJson env tn res s ∧ o = .text s)) ∨
       ∃ f b, a.filename = some f ∧ env.writable f = true ∧ DumpBytes env a tn res b ∧
         o = .file f (compressBytes env (chooseCompress f (env.lower a.compression)) b)) := by
  have hrj : rawText ≠ jsonText := by decide
  constructor
  · intro h
    unfold dumpResults at h
    split at h
    · cases h
    next fmt fn comp hch =>
    obtain ⟨hok, hw, rfl, rfl⟩ := (dumpCheck_ok_iff env a fmt comp fn).1 hch
    refine ⟨hok, ?_⟩
    rw [hc] at h
    simp only [Bool.false_eq_true, if_false] at h
    obtain ⟨fmt', hw', hfmt⟩ := hok.format
    obtain rfl := wants_unique env a hw hw'
    rcases hfmt with rfl | rfl
    · rw [if_neg hrj] at h
      simp only at h
      split at h
      · next hf => exact Or.inl ⟨hf, Or.inl ⟨hw, by cases h; rfl⟩⟩
      · next f hf =>
        split at h
        · cases h
        · next hwr =>
          cases h
          exact Or.inr ⟨f, _, hf, by simpa using hwr, Or.inr ⟨hw, rfl⟩, rfl⟩
    · rw [if_pos rfl] at h
      cases hj : dumpJson env tn res with
      | error e => rw [hj] at h; cases h
      | ok s =>
        rw [hj] at h
        simp only [Except.map] at h
        have hs := (dumpJson_iff env tn res s).1 hj
        split at h
        · next hf => exact Or.inl ⟨hf, Or.inr ⟨hw, s, hs, by cases h; rfl⟩⟩
        · next f hf =>
          split at h
          · cases h
          · next hwr =>
            cases h
            exact Or.inr ⟨f, _, hf, by simpa using hwr, Or.inl ⟨hw, s, hs, rfl⟩, rfl⟩
  · rintro ⟨hok, h⟩
    obtain ⟨fmt, hw, hfmt⟩ := hok.format
    unfold dumpResults
    rw [(dumpCheck_ok_iff env a fmt _ _).2 ⟨hok, hw, rfl, rfl⟩]
    simp only [hc, Bool.false_eq_true, if_false]
    rcases h with ⟨hf, ⟨hw', rfl⟩ | ⟨hw', s, hs, rfl⟩⟩ | ⟨f, b, hf, hwr, ⟨hw', s, hs, rfl⟩ | ⟨hw', rfl⟩, rfl⟩
    · obtain rfl := wants_unique env a hw hw'
      rw [if_neg hrj, hf]
    · obtain rfl := wants_unique env a hw hw'
      rw [if_pos rfl, hf, (dumpJson_iff env tn res s).2 hs]
      rfl
    · obtain rfl := wants_unique env a hw hw'
      rw [if_pos rfl, hf, (dumpJson_iff env tn res s).2 hs]
      simp [Except.map, hwr]
    · obtain rfl := wants_unique env a hw hw'
      rw [if_neg hrj, hf]
      simp [hwr]

end

/-! ## A concrete environment -/

/-- Files are named by ASCII letters; `a` is there; the codes for compression put two bytes in front. -/
def ioEnv : DumpEnv ℕ ℕ where
  lower s := s.map fun c => if 65 ≤ c ∧ c ≤ 90 then c + 32 else c
  valid s := decide (0 ∉ s)
  present s := decide (s = chars "a" ∨ s = [])
  writable s := decide (s ≠ [])
  encode s := s
  gz b := 31 :: 139 :: b
  bz b := 66 :: 90 :: 104 :: b
  pickle o := 128 :: o.1 :: o.2
  tnJson n := .ok (chars "[]" ++ List.replicate n 32)
  resJson n := if n < 10 then .ok [48 + n] else .error .typeError

/-- C50 is violated: compression is accepted without a file name, although the documentation says that this raises `ValueError`; and the results are returned as
they are. The usual suffix `.gz` is not recognised. -/
theorem C50_violated : dumpResults ioEnv { compression := chars "gzip" } 0 [1] = .ok (.object (0, [1])) ∧
    dumpResults ioEnv { compression := chars "auto", filename := some (chars "b.gz"), format := some (chars "JSON") } 0 [1, 2] =
      .ok (.file (chars "b.gz") (chars "{\"tn\" : [], \"res\" : [1, 2]}")) ∧
    dumpResults ioEnv { compression := chars "auto", filename := some [] } 0 [] = .error .fileExists ∧
    dumpResults ioEnv { compression := chars "auto", filename := some [], overwrite := true } 0 [] = .error .osError ∧
    finiteWidthModule .negInf = true := by decide +kernel

example : dumpResults ioEnv { filename := some (chars "x/b.gzip/"), format := some (chars "json") } 0 [1] =
    .ok (.file (chars "x/b.gzip/") (31 :: 139 :: chars "{\"tn\" : [], \"res\" : [1]}")) ∧
    dumpResults ioEnv { filename := some (chars "a") } 0 [1] = .error .fileExists ∧
    dumpResults ioEnv { filename := some (chars "a"), overwrite := true, compression := chars "BZ2" } 0 [1] = .ok (.file (chars "a") [66, 90, 104, 128, 0, 1]) := by
  decide +kernel

/-! ## C56: `load_file` -/

section
variable {T R V : Type} (env : DumpEnv T R) (lenv : LoadEnv V)

/-- What is assumed of the libraries: decompressing undoes compressing, the compressed data start with their magic numbers, JSON texts are ASCII, and the bytes of an ASCII text
are its characters. -/
structure CodecsOk : Prop where
  gunzip : ∀ b, lenv.gunzip (env.gz b) = some b
  gz : ∀ b, ∃ b', env.gz b = 31 :: 139 :: b'
  bunzip : ∀ b, lenv.bunzip (env.bz b) = some b
  bz : ∀ b, ∃ b', env.bz b = 66 :: 90 :: b'
  encode : ∀ s, (∀ c ∈ s, c < 128) → env.encode s = s
  decode : ∀ s, (∀ c ∈ s, c < 128) → lenv.decode s = some s
  tnJson : ∀ t s, env.tnJson t = .ok s → ∀ c ∈ s, c < 128
  resJson : ∀ r s, env.resJson r = .ok s → ∀ c ∈ s, c < 128

theorem mem_intercalate {l : List ℕ} {ls : List (List ℕ)} {c : ℕ} (h : c ∈ l.intercalate ls) : c ∈ l ∨ ∃ x ∈ ls, c ∈ x := by
  rw [List.intercalate, List.mem_flatten] at h
  obtain ⟨x, hx, hc⟩ := h
  induction ls with
  | nil => cases hx
  | cons a ls ih =>
    cases ls with
    | nil =>
      simp only [List.intersperse, List.mem_singleton] at hx
      exact Or.inr ⟨a, List.mem_cons_self, hx ▸ hc⟩
    | cons b ls =>
      simp only [List.intersperse, List.mem_cons] at hx
      rcases hx with rfl | rfl | hx
      · exact Or.inr ⟨_, List.mem_cons_self, hc⟩
      · exact Or.inl hc
      · rcases ih hx with h | ⟨y, hy, h⟩
        · exact Or.inl h
        · exact Or.inr ⟨y, List.mem_cons_of_mem _ hy, h⟩

theorem resJson_of_mem {env : DumpEnv T R} {res : List R} {rs : List (List ℕ)} (h : List.Forall₂ (fun r t => env.resJson r = .ok t) res rs) {x : List ℕ}
    (hx : x ∈ rs) : ∃ r, env.resJson r = .ok x := by
  induction h with
  | nil => cases hx
  | cons hr _ ih =>
    rcases List.mem_cons.1 hx with rfl | hx
    · exact ⟨_, hr⟩
    · exact ih hx

/-- The JSON text is ASCII. -/
theorem dumpJson_ascii {env : DumpEnv T R} {lenv : LoadEnv V} (hok : CodecsOk env lenv) {tn : T} {res : List R} {s : List ℕ} (h : IsDumpJson env tn res s) :
    (∀ c ∈ s, c < 128) ∧ ∃ s', s = 123 :: 34 :: s' := by
  obtain ⟨t, rs, h1, h2, rfl⟩ := h
  constructor
  · intro c hc
    simp only [List.mem_append] at hc
    have g : ∀ l : List ℕ, (∀ c ∈ l, c < 128) → c ∈ l → c < 128 := fun l h hc => h c hc
    rcases hc with (((hc | hc) | hc) | hc) | hc
    · exact g _ (by decide) hc
    · exact hok.tnJson tn t h1 c hc
    · exact g _ (by decide) hc
    · rcases mem_intercalate hc with hc | ⟨x, hx, hc⟩
      · exact g _ (by decide) hc
      · obtain ⟨r, hr⟩ := resJson_of_mem h2 hx
        exact hok.resJson r x hr c hc
    · exact g _ (by decide) hc
  · have : chars "{\"tn\" : " = 123 :: 34 :: chars "tn\" : " := by decide
    rw [this]
    exact ⟨_, rfl⟩

/-- C56: `load_file` never returns bytes: what is no text raises an exception before. -/
theorem C56_never_binary (fuel : ℕ) (b b' : List ℕ) : loadBytes lenv fuel b ≠ .ok (.binary b') := by
  induction fuel generalizing b with
  | zero => intro h; cases h
  | succ fuel ih =>
    unfold loadBytes
    split
    · split
      · intro h; cases h
      · exact ih _
    · split
      · split
        · intro h; cases h
        · exact ih _
      · split
        · intro h; cases h
        · next hd =>
          split
          · intro h; cases h
          · rw [hd]; intro h; cases h

/-- C56: data that are not compressed are read as JSON, as text if they are no JSON; the exception for what is no text is passed on. -/
theorem C56_plain (fuel : ℕ) (b : List ℕ) (h1 : ∀ b', b ≠ 31 :: 139 :: b') (h2 : ∀ b', b ≠ 66 :: 90 :: b') :
    (lenv.decode b = none → loadBytes lenv (fuel + 1) b = .error .unicodeDecode) ∧
    (∀ s v, lenv.decode b = some s → lenv.loads s = some v → loadBytes lenv (fuel + 1) b = .ok (.json v)) ∧
    (∀ s, lenv.decode b = some s → lenv.loads s = none → loadBytes lenv (fuel + 1) b = .ok (.text s)) := by
  have t1 : b.take 2 ≠ [31, 139] := by
    intro h
    refine h1 (b.drop 2) ?_
    conv_lhs => rw [← List.take_append_drop 2 b, h]
    rfl
  have t2 : b.take 2 ≠ [66, 90] := by
    intro h
    refine h2 (b.drop 2) ?_
    conv_lhs => rw [← List.take_append_drop 2 b, h]
    rfl
  unfold loadBytes
  rw [if_neg t1, if_neg t2]
  refine ⟨fun h => by rw [h], fun s v h h' => by rw [h]; simp only [h'], fun s h h' => by rw [h]; simp only [h']⟩

/-- C56: an invalid name and a missing file are errors; otherwise the result depends on the contents only. -/
theorem C56_file (valid : List ℕ → Bool) (read : List ℕ → Option (List ℕ)) (fuel : ℕ) (name : List ℕ) :
    (valid name = false → loadFile lenv valid read fuel name = .error .valueError) ∧
    (valid name = true → read name = none → loadFile lenv valid read fuel name = .error .osError) ∧
    ∀ b, valid name = true → read name = some b → loadFile lenv valid read fuel name = loadBytes lenv fuel b := by
  unfold loadFile
  refine ⟨fun h => by simp [h], fun h h' => by simp [h, h'], fun b h h' => by simp [h, h']⟩

/-- Compressed data are read as what was compressed. -/
theorem loadBytes_compress (hok : CodecsOk env lenv) (c : Compress) (fuel : ℕ) (b : List ℕ) :
    loadBytes lenv (fuel + 2) (compressBytes env c b) = loadBytes lenv (fuel + 1) b ∨ (c = .plain ∧ compressBytes env c b = b) := by
  cases c with
  | gzip =>
    left
    obtain ⟨b', hb⟩ := hok.gz b
    have := hok.gunzip b
    rw [compressBytes]
    rw [hb] at this ⊢
    rw [loadBytes, if_pos (by rfl), this]
  | bz2 =>
    left
    obtain ⟨b', hb⟩ := hok.bz b
    have := hok.bunzip b
    rw [compressBytes]
    rw [hb] at this ⊢
    rw [loadBytes, if_neg (by simp), if_pos (by rfl), this]
  | plain => exact Or.inr ⟨rfl, rfl⟩

/-- C56, what is missing: results that are not dumped as JSON cannot be loaded, see `C56_violated`.

A JSON file that `dump_results` has written, compressed or not, is loaded as the value of the JSON text. -/
theorem C56_json_partial (hok : CodecsOk env lenv) (a : DumpArgs) (hc : a.checkOnly = false) (tn : T) (res : List R) (f b : List ℕ)
    (h : dumpResults env a tn res = .ok (.file f b)) (hw : a.wants env jsonText) (valid : List ℕ → Bool) (hv : valid f = true) (read : List ℕ → Option (List ℕ))
    (hr : read f = some b) (fuel : ℕ) :
    ∃ s, IsDumpJson env tn res s ∧ ∀ v, lenv.loads s = some v → loadFile lenv valid read (fuel + 2) f = .ok (.json v) := by
  obtain ⟨hargs, h⟩ := (C50_dump_partial env a hc tn res _).1 h
  rcases h with ⟨-, ⟨-, h⟩ | ⟨-, s, -, h⟩⟩ | ⟨f', b0, hf, -, hb, h⟩
  · cases h
  · cases h
  · simp only [DumpOut.file.injEq] at h
    obtain ⟨rfl, rfl⟩ := h
    rcases hb with ⟨-, s, hs, rfl⟩ | ⟨hw', -⟩
    · refine ⟨s, hs, fun v hl => ?_⟩
      unfold loadFile
      rw [hv, hr]
      simp only [Bool.true_eq_false, if_false]
      obtain ⟨hascii, s', hs'⟩ := dumpJson_ascii hok hs
      have hp : ∀ fuel, loadBytes lenv (fuel + 1) (env.encode s) = .ok (.json v) := by
        intro fuel
        rw [hok.encode s hascii]
        exact (C56_plain lenv fuel s (by rw [hs']; simp) (by rw [hs']; simp)).2.1 s v (hok.decode s hascii) hl
      rcases loadBytes_compress env lenv hok (chooseCompress f (env.lower a.compression)) fuel (env.encode s) with h | ⟨-, h⟩
      · rw [h]; exact hp fuel
      · rw [h]; exact hp (fuel + 1)
    · have := wants_unique env a hw hw'
      exact absurd this (by decide)

/-- C56 is violated: results that were not dumped as JSON are never loaded, since a pickle starts with the byte 128, which is no text. -/
theorem C56_raw_error (hok : CodecsOk env lenv) (hp : ∀ o, ∃ b, env.pickle o = 128 :: b) (hd : ∀ b, lenv.decode (128 :: b) = none)
    (a : DumpArgs) (hc : a.checkOnly = false) (tn : T) (res : List R) (f b : List ℕ) (h : dumpResults env a tn res = .ok (.file f b)) (hw : a.wants env rawText)
    (valid : List ℕ → Bool) (hv : valid f = true) (read : List ℕ → Option (List ℕ)) (hr : read f = some b) (fuel : ℕ) :
    loadFile lenv valid read (fuel + 2) f = .error .unicodeDecode := by
  obtain ⟨hargs, h⟩ := (C50_dump_partial env a hc tn res _).1 h
  rcases h with ⟨-, ⟨-, h⟩ | ⟨-, s, -, h⟩⟩ | ⟨f', b0, hf, -, hb, h⟩
  · cases h
  · cases h
  · simp only [DumpOut.file.injEq] at h
    obtain ⟨rfl, rfl⟩ := h
    rcases hb with ⟨hw', -⟩ | ⟨-, rfl⟩
    · have := wants_unique env a hw hw'
      exact absurd this (by decide)
    · unfold loadFile
      rw [hv, hr]
      simp only [Bool.true_eq_false, if_false]
      obtain ⟨b', hb'⟩ := hp (tn, res)
      have hh : ∀ fuel, loadBytes lenv (fuel + 1) (env.pickle (tn, res)) = .error .unicodeDecode := by
        intro fuel
        exact (C56_plain lenv fuel _ (by rw [hb']; simp) (by rw [hb']; simp)).1 (by rw [hb']; exact hd b')
      rcases loadBytes_compress env lenv hok (chooseCompress f (env.lower a.compression)) fuel (env.pickle (tn, res)) with h | ⟨-, h⟩
      · rw [h]; exact hh fuel
      · rw [h]; exact hh (fuel + 1)

end

/-- Decoders that fit `ioEnv`: bytes from 128 on are no text, and a text is JSON if it starts with a brace. -/
def ioLoad : LoadEnv (List ℕ) where
  gunzip b := some (b.drop 2)
  bunzip b := if b.take 3 = [66, 90, 104] then some (b.drop 3) else none
  decode b := if b.any fun x => decide (128 ≤ x) then none else some b
  loads s := if s.head? = some 123 then some s else none

theorem ioCodecs : CodecsOk ioEnv ioLoad where
  gunzip b := rfl
  gz b := ⟨b, rfl⟩
  bunzip b := by simp [ioEnv, ioLoad]
  bz b := ⟨104 :: b, rfl⟩
  encode s _ := rfl
  decode s h := by
    simp only [ioLoad]
    rw [if_neg]
    simp only [List.any_eq_true, decide_eq_true_eq, not_exists, not_and, not_le]
    exact h
  tnJson t s h c hc := by
    simp only [ioEnv, Except.ok.injEq] at h
    rw [← h] at hc
    rcases List.mem_append.1 hc with hc | hc
    · have : ∀ c ∈ chars "[]", c < 128 := by decide
      exact this c hc
    · rw [(List.mem_replicate.1 hc).2]; decide
  resJson r s h c hc := by
    simp only [ioEnv] at h
    split at h
    · cases h
      rw [List.mem_singleton.1 hc]
      omega
    · cases h

/-- A text file that starts with `BZ` is taken for compressed data; a file that decompresses to itself exhausts the stack. -/
theorem C56_violated : loadFile ioLoad (fun _ => true) (fun _ => some [66, 90, 48]) 1000 [97] = .error .dataError ∧
    loadFile ioLoad (fun _ => true) (fun _ => some [128, 4, 1]) 1000 [97] = .error .unicodeDecode ∧
    loadFile { ioLoad with gunzip := fun b => some b } (fun _ => true) (fun _ => some [31, 139, 1]) 1000 [97] = .error .recursion := by decide +kernel

example : loadFile ioLoad (fun _ => true) (fun _ => some (31 :: 139 :: chars "{\"tn\" : [], \"res\" : [1]}")) 1000 (chars "x/b.gzip/") =
    .ok (.json (chars "{\"tn\" : [], \"res\" : [1]}")) := by
  obtain ⟨s, h1, h2⟩ := C56_json_partial ioEnv ioLoad ioCodecs { filename := some (chars "x/b.gzip/"), format := some (chars "json") } rfl 0 [1] (chars "x/b.gzip/")
    (31 :: 139 :: chars "{\"tn\" : [], \"res\" : [1]}") (by decide +kernel) ((wants_iff _ _ _).2 (by decide)) (fun _ => true) rfl
    (fun _ => some (31 :: 139 :: chars "{\"tn\" : [], \"res\" : [1]}")) rfl 998
  have e : dumpJson ioEnv 0 [1] = .ok (chars "{\"tn\" : [], \"res\" : [1]}") := by decide +kernel
  have := (dumpJson_iff ioEnv 0 [1] s).2 h1
  rw [e] at this
  cases this
  exact h2 _ (by decide +kernel)

end TNCO
