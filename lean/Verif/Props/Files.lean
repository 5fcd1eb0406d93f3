import Verif.Spec.Files
import Verif.Lemmas.Learn
import Verif.Props.RulesFile
import Verif.Props.Vocab

/-!
# Properties of reading files (C64 – C67)
-/
namespace Verif.Props

open Verif.Spec Verif.Model Verif.Lemmas

/-! ## C64: the cache -/

/-- **C64**: after `check` a cache with a maximum holds at most that many values, a cache within its
bound is unchanged, and a maximum of 0 means that there is no bound. -/
theorem cache_bounded (c : Cache) :
    c.check.maxSize = c.maxSize ∧ (0 < c.maxSize → c.check.visited.length ≤ c.maxSize) ∧
      (c.visited.length ≤ c.maxSize → c.check = c) ∧ (c.maxSize = 0 → c.check = c) ∧
      (c.check = c ∨ c.check.visited = []) := by
  unfold Cache.check
  split
  · rename_i h
    exact ⟨rfl, fun _ => Nat.zero_le _, fun h' => by omega, fun h' => by omega, .inr rfl⟩
  · rename_i h
    exact ⟨rfl, fun h' => by omega, fun _ => rfl, fun _ => rfl, .inl rfl⟩

example : Cache.check ⟨[2, 3, 5], 2⟩ = ⟨[], 2⟩ ∧ Cache.check ⟨[2, 3], 2⟩ = ⟨[2, 3], 2⟩ ∧
    Cache.check ⟨[2, 3, 5], 0⟩ = ⟨[2, 3, 5], 0⟩ := by decide

/-! ## Fields and numbers -/

theorem splitChar_mem (sep : Char) (s : List Char) : ∀ f ∈ splitChar sep s, sep ∉ f := by
  induction s with
  | nil => simp [splitChar]
  | cons c s ih =>
    rw [splitChar]
    split
    · intro f hf
      rcases List.mem_cons.mp hf with rfl | hf
      · simp
      · exact ih f hf
    · rename_i hc
      split
      · intro f hf
        simp only [List.mem_singleton] at hf
        subst hf
        simpa using fun h : sep = c => hc h.symm
      · rename_i w ws h
        rw [h] at ih
        intro f hf
        rcases List.mem_cons.mp hf with rfl | hf
        · have := ih w (by simp)
          simp only [List.mem_cons, not_or]
          exact ⟨fun h => hc h.symm, this⟩
        · exact ih f (by simp [hf])

theorem intercalate_splitChar (sep : Char) (s : List Char) : [sep].intercalate (splitChar sep s) = s := by
  induction s with
  | nil => rfl
  | cons c s ih =>
    have hne := splitChar_ne_nil sep s
    rw [splitChar]
    split
    · rename_i hc
      subst hc
      cases h : splitChar c s with
      | nil => exact absurd h hne
      | cons w ws =>
        rw [h] at ih
        rw [← ih]
        simp [List.intercalate, List.intersperse]
    · split
      · rename_i h; exact absurd h hne
      · rename_i w ws h
        rw [h] at ih
        cases ws with
        | nil => simpa [List.intercalate, List.intersperse] using ih
        | cons x xs =>
          rw [← ih]
          simp [List.intercalate, List.intersperse]

/-- Splitting a line gives its fields. -/
theorem fieldsOf_iff (line : List Char) (fields : List (List Char)) :
    FieldsOf line fields ↔ splitChar '\t' line = fields := by
  constructor
  · rintro ⟨h1, h2, rfl⟩
    exact splitChar_intercalate fields h1 h2
  · rintro rfl
    exact ⟨splitChar_ne_nil _ _, splitChar_mem _ _, (intercalate_splitChar _ _).symm⟩

theorem digit_some {c : Char} {d : Nat} (h : digit? c = some d) : d < 10 ∧ c = Nat.digitChar d := by
  unfold digit? at h
  split at h
  · rename_i hc
    cases h
    have h1 : '0'.toNat ≤ c.toNat := hc.1
    have h2 : c.toNat ≤ '9'.toNat := hc.2
    have e0 : '0'.toNat = 48 := rfl
    have e9 : '9'.toNat = 57 := rfl
    rw [e0] at h1
    rw [e9] at h2
    refine ⟨by rw [e0]; omega, ?_⟩
    have key : ∀ n < 58, 48 ≤ n → Char.ofNat n = Nat.digitChar (n - 48) := by decide
    have := key c.toNat (by omega) h1
    rw [Char.ofNat_toNat] at this
    rw [e0]
    exact this
  · cases h

theorem parseDigits_some {max v w : Nat} {s : List Char} (h : parseDigits max v s = some w) :
    ∃ ds : List Nat, (∀ d ∈ ds, d < 10) ∧ s = ds.map Nat.digitChar ∧
      w = ds.foldl (fun a d => a * 10 + d) v ∧ (ds ≠ [] → w ≤ max) := by
  induction s generalizing v with
  | nil => cases h; exact ⟨[], by simp, rfl, rfl, by simp⟩
  | cons c s ih =>
    rw [parseDigits] at h
    cases hd : digit? c with
    | none => rw [hd] at h; cases h
    | some d =>
      rw [hd] at h
      simp only at h
      split at h
      · rename_i hle
        obtain ⟨h1, rfl⟩ := digit_some hd
        obtain ⟨ds, g1, rfl, g3, g4⟩ := ih h
        refine ⟨d :: ds, ?_, rfl, g3, fun _ => ?_⟩
        · intro x hx
          rcases List.mem_cons.mp hx with rfl | hx
          · exact h1
          · exact g1 x hx
        · by_cases he : ds = []
          · subst he; rw [g3]; exact hle
          · exact g4 he
      · cases h

/-- Parsing of numbers. -/
theorem parseUnsigned_iff (max : Nat) (s : List Char) (v : Nat) :
    parseUnsigned max s = some v ↔ NumberText max s v := by
  constructor
  · intro h
    have fin : ∀ t : List Char, t ≠ [] → parseDigits max 0 t = some v →
        ∃ ds : List Nat, ds ≠ [] ∧ (∀ d ∈ ds, d < 10) ∧ t = ds.map Nat.digitChar ∧
          v = Nat.ofDigits 10 ds.reverse ∧ v ≤ max := by
      intro t ht h
      obtain ⟨ds, h1, rfl, h3, h4⟩ := parseDigits_some h
      have hne : ds ≠ [] := by simpa using ht
      exact ⟨ds, hne, h1, rfl, by rw [ofDigits_foldl]; exact h3, h4 hne⟩
    unfold parseUnsigned at h
    split at h
    · cases h
    · cases h
    · rename_i cs hne
      have hcs : cs ≠ [] := by rintro rfl; exact hne rfl
      obtain ⟨ds, h1, h2, h3, h4, h5⟩ := fin cs hcs h
      exact ⟨ds, h1, h2, .inr (by rw [h3]), h4, h5⟩
    · rename_i h1 h2 h3
      obtain ⟨ds, h1, h2, h3, h4, h5⟩ := fin s (by rintro rfl; exact h1 rfl) h
      exact ⟨ds, h1, h2, .inl h3, h4, h5⟩
  · rintro ⟨ds, h1, h2, h3, h4, h5⟩
    rw [ofDigits_foldl] at h4
    have hd := parseDigits_ok max ds 0 h2 (by omega)
    rw [← h4] at hd
    cases ds with
    | nil => exact absurd rfl h1
    | cons d ds =>
      rcases h3 with rfl | rfl
      · have hp : Nat.digitChar d ≠ '+' := (digitChar_ne (h2 d (by simp))).2
        rw [List.map_cons] at hd ⊢
        unfold parseUnsigned
        split
        · rename_i h; cases h
        · rename_i h; exact absurd (List.cons.inj h).1 hp
        · rename_i h; exact absurd (List.cons.inj h).1 hp
        · exact hd
      · rw [List.map_cons] at hd ⊢
        exact hd

/-! ## C65: the alphabet -/

theorem trimEnd_split (isSpace : Char → Bool) (s : List Char) :
    ∃ b, Blank isSpace b ∧ s = trimEnd isSpace s ++ b ∧
      ∀ c, (trimEnd isSpace s).getLast? = some c → isSpace c = false := by
  refine ⟨(s.reverse.takeWhile isSpace).reverse, ?_, ?_, ?_⟩
  · intro c hc
    rw [List.mem_reverse] at hc
    exact List.mem_takeWhile_imp hc
  · rw [trimEnd, ← List.reverse_append, List.takeWhile_append_dropWhile, List.reverse_reverse]
  · intro c hc
    rw [trimEnd, List.getLast?_reverse] at hc
    cases h : s.reverse.dropWhile isSpace with
    | nil => rw [h] at hc; cases hc
    | cons x xs =>
      rw [h] at hc
      cases hc
      have := List.head_dropWhile_not isSpace (l := s.reverse) (by rw [h]; simp)
      simpa [h] using this

theorem trim_split (isSpace : Char → Bool) (s : List Char) :
    ∃ a b, Blank isSpace a ∧ Blank isSpace b ∧ s = a ++ trim isSpace s ++ b ∧
      Trimmed isSpace (trim isSpace s) := by
  obtain ⟨b, h1, h2, h3⟩ := trimEnd_split isSpace (s.dropWhile isSpace)
  refine ⟨s.takeWhile isSpace, b, fun c hc => List.mem_takeWhile_imp hc, h1, ?_, ?_, ?_⟩
  · rw [List.append_assoc, trim_eq, ← h2, List.takeWhile_append_dropWhile]
  · intro c hc
    rw [trim_eq] at hc
    cases h : s.dropWhile isSpace with
    | nil => rw [h] at hc; simp [trimEnd] at hc
    | cons x xs =>
      rw [h] at h2 hc
      have hx : isSpace x = false := by
        have := List.head_dropWhile_not isSpace (l := s) (by rw [h]; simp)
        simpa [h] using this
      cases ht : trimEnd isSpace (x :: xs) with
      | nil => rw [ht] at hc; cases hc
      | cons y ys =>
        rw [ht] at hc h2
        cases hc
        cases h2
        exact hx
  · rw [trim_eq]; exact h3

theorem trim_blank {isSpace : Char → Bool} {a : List Char} (h : Blank isSpace a) : trim isSpace a = [] := by
  obtain ⟨x, y, _, _, h3, h4⟩ := trim_split isSpace a
  cases ht : trim isSpace a with
  | nil => rfl
  | cons c cs =>
    rw [ht] at h3 h4
    have h5 := h4.1 c rfl
    have h6 := h c (by rw [h3]; simp)
    rw [h5] at h6
    cases h6

theorem alphabetField_iff {isSpace : Char → Bool} (hb : isSpace '\\' = false) (x : List Char)
    (o : Option (List Char)) : AlphabetField isSpace x o ↔ alphabetField isSpace x = o := by
  have noblank : ∀ c, ¬ Blank isSpace ['\\', c] := by
    intro c h
    have := h '\\' (by simp)
    rw [hb] at this
    cases this
  constructor
  · intro h
    cases h with
    | space => rfl
    | tab => rfl
    | newline => rfl
    | blank h =>
      have h1 : x ≠ ['\\', 's'] := by rintro rfl; exact noblank _ h
      have h2 : x ≠ ['\\', 't'] := by rintro rfl; exact noblank _ h
      have h3 : x ≠ ['\\', 'n'] := by rintro rfl; exact noblank _ h
      rw [alphabetField, if_neg h1, if_neg h2, if_neg h3, trim_blank h]
      rfl
    | text h1 h2 h3 h4 h5 =>
      simp only [List.mem_cons, List.not_mem_nil, or_false, not_or] at h5
      rw [alphabetField, if_neg h5.1, if_neg h5.2.1, if_neg h5.2.2, trim_pad h1 h2 h3 h4, if_neg (by simpa using h4)]
  · rintro rfl
    rw [alphabetField]
    split
    · rename_i h; subst h; exact .space
    · split
      · rename_i h; subst h; exact .tab
      · split
        · rename_i h; subst h; exact .newline
        · rename_i h1 h2 h3
          obtain ⟨a, b, g1, g2, g3, g4⟩ := trim_split isSpace x
          split
          · rename_i h
            have : trim isSpace x = [] := by simpa using h
            rw [this] at g3
            refine .blank ?_
            rw [g3]
            intro c hc
            simp only [List.append_nil, List.mem_append] at hc
            rcases hc with hc | hc
            · exact g1 c hc
            · exact g2 c hc
          · rename_i h
            have hne : trim isSpace x ≠ [] := by simpa using h
            have := AlphabetField.text g1 g2 g4 hne (by
              rw [← g3]; simp [h1, h2, h3])
            rw [← g3] at this
            exact this

/-- **C65**: reading an alphabet adds one entry for each line that is not empty, with the strings the
fields of the line stand for. -/
theorem read_alphabet_entries {isSpace : Char → Bool} (hb : isSpace '\\' = false)
    (alphabet : Alphabet) (lines : List (Option (List Char))) :
    ∃ entries, List.Forall₂ (AlphabetLine isSpace) (nonEmpty lines) entries ∧
      readAlphabet isSpace alphabet lines = alphabet ++ entries ∧
      ∀ entries', List.Forall₂ (AlphabetLine isSpace) (nonEmpty lines) entries' → entries' = entries := by
  have line : ∀ (l : List Char) (e : List (List Char)), AlphabetLine isSpace l e ↔
      e = (splitChar '\t' l).filterMap (alphabetField isSpace) := by
    intro l e
    constructor
    · rintro ⟨fields, items, h1, h2, rfl⟩
      rw [fieldsOf_iff] at h1
      rw [h1]
      have : items = fields.map (alphabetField isSpace) := by
        clear h1
        induction h2 with
        | nil => rfl
        | cons h _ ih => rw [List.map_cons, (alphabetField_iff hb _ _).mp h, ih]
      rw [this, List.filterMap_map]
      rfl
    · rintro rfl
      refine ⟨splitChar '\t' l, (splitChar '\t' l).map (alphabetField isSpace), (fieldsOf_iff _ _).mpr rfl,
        ?_, ?_⟩
      · rw [List.forall₂_map_right_iff, List.forall₂_same]
        intro x _
        exact (alphabetField_iff hb _ _).mpr rfl
      · rw [List.filterMap_map]; rfl
  refine ⟨(nonEmpty lines).map fun l => (splitChar '\t' l).filterMap (alphabetField isSpace), ?_, ?_, ?_⟩
  · rw [List.forall₂_map_right_iff, List.forall₂_same]
    intro l _
    exact (line l _).mpr rfl
  · induction lines generalizing alphabet with
    | nil => simp [readAlphabet, nonEmpty, readable]
    | cons l lines ih =>
      cases l with
      | none => rw [readAlphabet, ih]; simp [nonEmpty, readable]
      | some l =>
        rw [readAlphabet, ih]
        cases l with
        | nil => simp [nonEmpty, readable]
        | cons c l => simp [nonEmpty, readable]
  · intro entries' h
    generalize nonEmpty lines = ls at h
    induction h with
    | nil => rfl
    | cons h _ ih => rw [List.map_cons, (line _ _).mp h, ih]

/-- **C65**: no string of an alphabet that was read is empty. -/
theorem read_alphabet_noEmpty (isSpace : Char → Bool) (lines : List (Option (List Char))) :
    NoEmpty (readAlphabet isSpace [] lines) := by
  have gen : ∀ (lines : List (Option (List Char))) (alphabet : Alphabet), NoEmpty alphabet →
      NoEmpty (readAlphabet isSpace alphabet lines) := by
    intro lines
    induction lines with
    | nil => intro a h; exact h
    | cons l lines ih =>
      intro a h
      cases l with
      | none => exact ih a h
      | some l =>
        rw [readAlphabet]
        apply ih
        split
        · exact h
        · intro entry he
          rcases List.mem_append.mp he with he | he
          · exact h entry he
          · rw [List.mem_singleton] at he
            subst he
            intro hm
            obtain ⟨x, _, hx⟩ := List.mem_filterMap.mp hm
            unfold alphabetField at hx
            split at hx
            · cases hx
            split at hx
            · cases hx
            split at hx
            · cases hx
            split at hx
            · cases hx
            · rename_i hne
              have h0 := Option.some.inj hx
              simp [h0] at hne
  exact gen lines [] (by intro e he; simp at he)

/-- **C65**: with an alphabet of up to 167 lines that was read from a file, every text can be hashed
and normalised. -/
theorem read_alphabet_hashes (isSpace : Char → Bool) (lines : List (Option (List Char)))
    (hl : (nonEmpty lines).length ≤ 167) (s : List Char) :
    (∃ v, anahash (readAlphabet isSpace [] lines) s = .ok v) ∧
      ∃ n, normalizeToAlphabet (readAlphabet isSpace [] lines) s = .ok n := by
  have hne := read_alphabet_noEmpty isSpace lines
  have hlen : (readAlphabet isSpace [] lines).length ≤ 167 := by
    have gen : ∀ (lines : List (Option (List Char))) (a : Alphabet),
        (readAlphabet isSpace a lines).length = a.length + (nonEmpty lines).length := by
      intro lines
      induction lines with
      | nil => intro a; simp [readAlphabet, nonEmpty, readable]
      | cons l lines ih =>
        intro a
        cases l with
        | none => rw [readAlphabet, ih]; simp [nonEmpty, readable]
        | some l =>
          rw [readAlphabet, ih]
          cases l with
          | nil => simp [nonEmpty, readable]
          | cons c l => simp [nonEmpty, readable]; omega
    rw [gen]; simpa using hl
  obtain ⟨cs, h1, _⟩ := encoding_exists_unique _ hne (readAlphabet isSpace [] lines).length s
  obtain ⟨cs', h2, _⟩ := encoding_exists_unique _ hne ((readAlphabet isSpace [] lines).length + 1) s
  exact ⟨⟨_, anahash_value _ hlen s cs h1⟩,
    ⟨_, (normalize_is_greedy_encoding _ hne (by omega) s cs').mpr h2⟩⟩

/-- A line that has only blanks takes a symbol that nothing matches. -/
example : readAlphabet (· == ' ') [] [some "a\tA \t".toList, some [], some " \t".toList, none,
    some "\\s\t\\t\t \\s".toList] = [[['a'], ['A']], [], [[' '], ['\t'], ['\\', 's']]] := by
  decide +kernel

/-! ## C66: thresholds -/

/-- What is written is an absolute threshold. -/
theorem threshold_absolute_iff (parseF32 : List Char → Option EFloat) (s : List Char) (n : Nat) :
    parseThreshold parseF32 s = some (.absolute n) ↔ NumberText 255 s n := by
  have nosep : NumberText 255 s n → ';' ∉ s := by
    rintro ⟨ds, _, h2, h3, _⟩ hm
    have : ∀ ds : List Nat, (∀ d ∈ ds, d < 10) → ';' ∉ ds.map Nat.digitChar := by
      intro ds hd hm
      obtain ⟨d, h1, h2⟩ := List.mem_map.mp hm
      have : ∀ d < 10, Nat.digitChar d ≠ ';' := by decide
      exact this d (hd d h1) h2
    rcases h3 with rfl | rfl
    · exact this ds h2 hm
    · rcases List.mem_cons.mp hm with h | h
      · cases h
      · exact this ds h2 h
  rw [← parseUnsigned_iff] at *
  constructor
  · intro h
    unfold parseThreshold at h
    split at h
    · split at h
      · split at h <;> cases h
      · cases h
    · split at h
      · rename_i h1; cases h; exact h1
      · split at h
        · split at h <;> cases h
        · cases h
  · intro h
    rw [parseThreshold, if_neg (nosep h), h]

/-- **C66**: the ratio, for a parser of floats that accepts nothing with a semicolon. -/
theorem threshold_ratio_iff (parseF32 : List Char → Option EFloat)
    (hf : ∀ s, ';' ∈ s → parseF32 s = none) (s : List Char) (x : EFloat) :
    parseThreshold parseF32 s = some (.ratio x) ↔
      (∀ n, ¬ NumberText 255 s n) ∧ parseF32 s = some x ∧ ∃ q, x = .fin q ∧ 0 ≤ q ∧ q ≤ 1 := by
  have unit : ∀ x, inUnit x = true ↔ ∃ q, x = .fin q ∧ 0 ≤ q ∧ q ≤ 1 := by
    intro x
    cases x <;> simp [inUnit]
  simp only [← parseUnsigned_iff]
  constructor
  · intro h
    unfold parseThreshold at h
    split at h
    · split at h
      · split at h <;> cases h
      · cases h
    · split at h
      · cases h
      · rename_i h1
        split at h
        · rename_i y h2
          split at h
          · rename_i h3
            cases h
            exact ⟨by rw [h1]; simp, h2, (unit _).mp h3⟩
          · cases h
        · cases h
  · rintro ⟨h1, h2, h3⟩
    have hs : ';' ∉ s := by intro hs; rw [hf s hs] at h2; cases h2
    have h1 : parseUnsigned 255 s = none := by
      cases hp : parseUnsigned 255 s with
      | none => rfl
      | some n => exact absurd hp (h1 n)
    rw [parseThreshold, if_neg hs, h1, h2]
    simp only [(unit x).mpr h3, if_true]

/-- **C66**: the combination; the ratio is not restricted to numbers between 0 and 1. -/
theorem threshold_limit_partial (parseF32 : List Char → Option EFloat)
    (hf : ∀ s, ';' ∈ s → parseF32 s = none) (s : List Char) (x : EFloat) (n : Nat) :
    parseThreshold parseF32 s = some (.ratioWithLimit x n) ↔
      ∃ a b, s = a ++ ';' :: b ∧ parseF32 a = some x ∧ NumberText 255 b n := by
  simp only [← parseUnsigned_iff]
  constructor
  · intro h
    unfold parseThreshold at h
    split at h
    · split at h
      · rename_i a b h1
        split at h
        · rename_i x' n' h2 h3
          cases h
          refine ⟨a, b, ?_, h2, h3⟩
          have := intercalate_splitChar ';' s
          rw [h1] at this
          rw [← this]
          simp [List.intercalate, List.intersperse]
        · cases h
      · cases h
    · split at h
      · cases h
      · split at h
        · split at h <;> cases h
        · cases h
  · rintro ⟨a, b, rfl, h1, h2⟩
    have ha : ';' ∉ a := by intro hs; rw [hf a hs] at h1; cases h1
    have hb : ';' ∉ b := by
      intro hm
      have h3 := (threshold_absolute_iff parseF32 b n).mpr ((parseUnsigned_iff _ _ _).mp h2)
      unfold parseThreshold at h3
      rw [if_pos hm] at h3
      split at h3
      · split at h3 <;> cases h3
      · cases h3
    have hsp : splitChar ';' (a ++ ';' :: b) = [a, b] := by
      have := splitChar_intercalate (sep := ';') [a, b] (by simp) (by
        intro s hs
        simp only [List.mem_cons, List.not_mem_nil, or_false] at hs
        rcases hs with rfl | rfl
        · exact ha
        · exact hb)
      simpa [List.intercalate, List.intersperse] using this
    rw [parseThreshold, if_pos (by simp), hsp]
    simp only [h1, h2]

/-- A parser that knows three floats. -/
def exParseF32 (s : List Char) : Option EFloat :=
  if s = "0.5".toList then some (.fin (1 / 2))
  else if s = "7.5".toList then some (.fin (15 / 2))
  else if s = "inf".toList then some .posInf else none

example : parseThreshold exParseF32 "3".toList = some (.absolute 3) ∧
    parseThreshold exParseF32 "0.5".toList = some (.ratio (.fin (1 / 2))) ∧
    parseThreshold exParseF32 "0.5;3".toList = some (.ratioWithLimit (.fin (1 / 2)) 3) ∧
    parseThreshold exParseF32 "256".toList = none ∧ parseThreshold exParseF32 "7.5".toList = none ∧
    parseThreshold exParseF32 "0.5;3;4".toList = none := by
  decide +kernel

/-- **C66**, where it fails: a ratio out of range is accepted together with a limit. -/
theorem threshold_ratio_unchecked :
    parseThreshold exParseF32 "7.5;3".toList = some (.ratioWithLimit (.fin (15 / 2)) 3) ∧
      parseThreshold exParseF32 "inf;3".toList = some (.ratioWithLimit .posInf 3) := by
  decide +kernel

/-! ## C67: lexicons -/

theorem add_haveFreq (m : Vm) (b : Bool) (text : List Char) (f : Option Nat) (params : VocabParams) :
    ({ m with haveFreq := b } : Vm).addToVocabulary text f params =
      (m.addToVocabulary text f params).map fun x => ({ x.1 with haveFreq := b }, x.2) := by
  unfold Vm.addToVocabulary
  simp only
  cases m.encoder.get? text with
  | some id =>
    simp only
    cases m.decoder[id]? with
    | none => rfl
    | some item =>
      simp only [bind, Except.bind]
      cases combineFreq params.freqHandling item.frequency (f.getD 1) with
      | error e => rfl
      | ok freq =>
        simp only
        cases shiftBit params.index <;> rfl
  | none =>
    simp only [bind, Except.bind]
    cases normalizeToAlphabet m.alphabet text with
    | error e => rfl
    | ok norm =>
      simp only
      cases shiftBit params.index with
      | error e => rfl
      | ok bit =>
        simp only
        split <;> rfl

theorem add_fields {m m' : Vm} {text : List Char} {f : Option Nat} {params : VocabParams} {id : Nat}
    (h : m.addToVocabulary text f params = .ok (m', id)) :
    m'.haveFreq = m.haveFreq ∧ m'.lexicons = m.lexicons := by
  unfold Vm.addToVocabulary at h
  simp only at h
  cases he : m.encoder.get? text with
  | some id =>
    rw [he] at h
    simp only at h
    cases hd : m.decoder[id]? with
    | none => rw [hd] at h; cases h
    | some item =>
      rw [hd] at h
      obtain ⟨_, _, h⟩ := bind_ok.mp h
      obtain ⟨_, _, h⟩ := bind_ok.mp h
      cases pure_ok.mp h
      exact ⟨rfl, rfl⟩
  | none =>
    rw [he] at h
    obtain ⟨_, _, h⟩ := bind_ok.mp h
    obtain ⟨_, _, h⟩ := bind_ok.mp h
    split at h
    · cases h
    · cases pure_ok.mp h
      exact ⟨rfl, rfl⟩

theorem vocabFreq_iff (params : VocabParams) (fields : List (List Char)) (n : Nat) :
    vocabFreq params fields = .ok n ↔ ((params.freqColumn = none ∧ n = 1) ∨
      ∃ c, params.freqColumn = some c ∧ ((fields[c]? = none ∧ n = 1) ∨
        ∃ f, fields[c]? = some f ∧ NumberText (2 ^ 32 - 1) f n)) := by
  unfold vocabFreq
  constructor
  · intro h
    cases hc : params.freqColumn with
    | none => rw [hc] at h; cases h; exact .inl ⟨rfl, rfl⟩
    | some c =>
      rw [hc] at h
      refine .inr ⟨c, rfl, ?_⟩
      cases hf : fields[c]? with
      | none =>
        have h1 : parseUnsigned (2 ^ 32 - 1) ['1'] = some 1 := by decide
        simp only [hf, Option.getD_none, h1] at h
        cases h
        exact .inl ⟨rfl, rfl⟩
      | some f =>
        simp only [hf, Option.getD_some] at h
        cases hp : parseUnsigned (2 ^ 32 - 1) f with
        | none => rw [hp] at h; cases h
        | some v =>
          rw [hp] at h
          cases h
          exact .inr ⟨f, rfl, (parseUnsigned_iff _ _ _).mp hp⟩
  · rintro (⟨h1, rfl⟩ | ⟨c, h1, ⟨h2, rfl⟩ | ⟨f, h2, h3⟩⟩)
    · rw [h1]
    · rw [h1]
      have h1 : parseUnsigned (2 ^ 32 - 1) ['1'] = some 1 := by decide
      simp only [h2, Option.getD_none, h1]
    · rw [h1]
      simp only [h2, Option.getD_some, (parseUnsigned_iff _ _ _).mpr h3]

theorem vocabLine_add {p params : VocabParams} (hp1 : p.textColumn = params.textColumn)
    (hp2 : p.freqColumn = params.freqColumn) (hp3 : p.vocabType = params.vocabType) {line : List Char}
    (hl : line ≠ []) (m m2 : Vm) :
    m.readVocabLine p line = .ok m2 ↔
      ∃ e m1 id, VocabLine params line e ∧ m.addToVocabulary e.1 (some e.2) p = .ok (m1, id) ∧
        m2 = { m1 with
          haveFreq := m.haveFreq || (params.freqColumn.isSome && params.vocabType.check .INDEXED) } := by
  have hvf : ∀ fields, vocabFreq p fields = vocabFreq params fields := by
    intro fields; unfold vocabFreq; rw [hp2]
  have hflag : (if params.freqColumn.isSome = true ∧ params.vocabType.check .INDEXED = true then
      { m with haveFreq := true } else m) = ({ m with
        haveFreq := m.haveFreq || (params.freqColumn.isSome && params.vocabType.check .INDEXED) } : Vm) := by
    cases params.freqColumn.isSome <;> cases params.vocabType.check .INDEXED <;> simp
  rw [Vm.readVocabLine, if_neg (by simpa using hl), hp1, hp2, hp3, hflag]
  constructor
  · intro h
    simp only at h
    cases hf : (splitChar '\t' line)[params.textColumn]? with
    | none => rw [hf] at h; cases h
    | some text =>
      rw [hf] at h
      obtain ⟨freq, h1, h⟩ := bind_ok.mp h
      obtain ⟨⟨m1, id⟩, h2, h⟩ := bind_ok.mp h
      rw [add_haveFreq] at h2
      cases h3 : m.addToVocabulary text (some freq) p with
      | error e => rw [h3] at h2; cases h2
      | ok x =>
        rw [h3] at h2
        cases h2
        rw [hvf, vocabFreq_iff] at h1
        exact ⟨(text, freq), x.1, x.2, ⟨_, (fieldsOf_iff _ _).mpr rfl, hf, h1⟩, h3, (pure_ok.mp h).symm⟩
  · rintro ⟨⟨text, freq⟩, m1, id, ⟨fields, h1, h2, h3⟩, h4, rfl⟩
    rw [fieldsOf_iff] at h1
    rw [h1]
    simp only at h2 h3 h4 ⊢
    rw [h2]
    refine bind_ok.mpr ⟨freq, by rw [hvf, vocabFreq_iff]; exact h3, bind_ok.mpr ⟨({ m1 with
        haveFreq := m.haveFreq || (params.freqColumn.isSome && params.vocabType.check .INDEXED) }, id),
      ?_, rfl⟩⟩
    rw [add_haveFreq, h4]
    rfl

/-- Histories that only add words. -/
def addOps (params : VocabParams) (entries : List (List Char × Nat)) : List Op :=
  entries.map fun e => .add e.1 (some e.2) params

theorem addOps_haveFreq (params : VocabParams) (entries : List (List Char × Nat)) (m : Vm) (b : Bool) :
    ({ m with haveFreq := b } : Vm).run (addOps params entries) =
      (m.run (addOps params entries)).map fun x => { x with haveFreq := b } := by
  induction entries generalizing m with
  | nil => rfl
  | cons e es ih =>
    simp only [addOps, List.map_cons, Vm.run, Vm.step, bind, Except.bind]
    rw [add_haveFreq]
    cases m.addToVocabulary e.1 (some e.2) params with
    | error e => rfl
    | ok x => exact ih x.1

theorem addOps_fields {params : VocabParams} {entries : List (List Char × Nat)} {m m' : Vm}
    (h : m.run (addOps params entries) = .ok m') :
    m'.haveFreq = m.haveFreq ∧ m'.lexicons = m.lexicons := by
  induction entries generalizing m with
  | nil => cases h; exact ⟨rfl, rfl⟩
  | cons e es ih =>
    obtain ⟨m1, h1, h2⟩ := bind_ok.mp h
    obtain ⟨⟨m2, id⟩, h3, h4⟩ := bind_ok.mp h1
    cases pure_ok.mp h4
    obtain ⟨g1, g2⟩ := add_fields h3
    obtain ⟨g3, g4⟩ := ih h2
    exact ⟨g3.trans g1, g4.trans g2⟩

theorem vocabLines_add {p params : VocabParams} (hp1 : p.textColumn = params.textColumn)
    (hp2 : p.freqColumn = params.freqColumn) (hp3 : p.vocabType = params.vocabType)
    (lines : List (Option (List Char))) (m m2 : Vm) :
    m.readVocabLines p lines = .ok m2 ↔
      ∃ entries m1, List.Forall₂ (VocabLine params) (nonEmpty lines) entries ∧
        m.run (addOps p entries) = .ok m1 ∧
        m2 = { m1 with
          haveFreq := m.haveFreq || (params.freqColumn.isSome && params.vocabType.check .INDEXED
            && !entries.isEmpty) } := by
  induction lines generalizing m m2 with
  | nil =>
    constructor
    · intro h; cases h
      exact ⟨[], m, .nil, rfl, by simp⟩
    · rintro ⟨entries, m1, h1, h2, h3⟩
      cases h1
      cases h2
      rw [h3]
      simp [Vm.readVocabLines]
  | cons l lines ih =>
    cases l with
    | none => rw [Vm.readVocabLines, ih m m2]; rfl
    | some l =>
      by_cases hl : l = []
      · subst hl
        rw [Vm.readVocabLines]
        simp only [Vm.readVocabLine, List.isEmpty_nil, if_true, bind, Except.bind]
        rw [ih m m2]
        rfl
      · have hne : nonEmpty (some l :: lines) = l :: nonEmpty lines := by
          simp [nonEmpty, readable, hl]
        rw [hne, Vm.readVocabLines]
        constructor
        · intro h
          obtain ⟨m3, h1, h2⟩ := bind_ok.mp h
          obtain ⟨e, m4, id, g1, g2, rfl⟩ := (vocabLine_add hp1 hp2 hp3 hl m m3).mp h1
          obtain ⟨es, m5, g3, g4, rfl⟩ := (ih _ _).mp h2
          rw [addOps_haveFreq] at g4
          cases g5 : m4.run (addOps p es) with
          | error e => rw [g5] at g4; cases g4
          | ok m6 =>
            rw [g5] at g4
            cases g4
            refine ⟨e :: es, m6, .cons g1 g3, ?_, ?_⟩
            · exact bind_ok.mpr ⟨m4, bind_ok.mpr ⟨_, g2, rfl⟩, g5⟩
            · simp
              cases m.haveFreq <;> cases params.freqColumn.isSome <;>
                cases params.vocabType.check .INDEXED <;> simp
        · rintro ⟨entries, m1, h1, h2, rfl⟩
          cases h1 with
          | cons g1 g3 =>
            rename_i e es
            obtain ⟨m4, i1, g5⟩ := bind_ok.mp h2
            obtain ⟨⟨m4', id⟩, g2, i2⟩ := bind_ok.mp i1
            cases pure_ok.mp i2
            refine bind_ok.mpr ⟨_, (vocabLine_add hp1 hp2 hp3 hl m _).mpr ⟨e, _, id, g1, g2, rfl⟩, ?_⟩
            rw [ih]
            refine ⟨es, { m1 with
              haveFreq := m.haveFreq || (params.freqColumn.isSome && params.vocabType.check .INDEXED) },
              g3, ?_, ?_⟩
            · rw [addOps_haveFreq]
              rw [show m4.run (addOps p es) = .ok m1 from g5]
              rfl
            · simp
              cases m.haveFreq <;> cases params.freqColumn.isSome <;>
                cases params.vocabType.check .INDEXED <;> simp

/-- **C67**: reading a lexicon has the effect of adding the text of each line that is not empty with its
frequency, under the next index; the name is recorded, and that there are frequencies if a column for
them was given and the words are to be indexed. -/
theorem read_vocabulary (m : Vm) (filename : List Char) (params : VocabParams)
    (lines : List (Option (List Char))) (m' : Vm) :
    m.readVocabulary filename params lines = .ok m' ↔
      ∃ entries m1, List.Forall₂ (VocabLine params) (nonEmpty lines) entries ∧
        m.run (entries.map fun e =>
          .add e.1 (some e.2) { params with index := m.lexicons.length % 256 }) = .ok m1 ∧
        m' = { m1 with
          lexicons := m.lexicons ++ [filename]
          haveFreq := m.haveFreq || (params.freqColumn.isSome && params.vocabType.check .INDEXED
            && !entries.isEmpty) } := by
  constructor
  · intro h
    obtain ⟨m2, h1, h2⟩ := bind_ok.mp h
    obtain ⟨es, m1, g1, g2, rfl⟩ := (vocabLines_add (params := params)
      (p := { params with index := m.lexicons.length % 256 }) rfl rfl rfl lines m m2).mp h1
    obtain ⟨_, g4⟩ := addOps_fields g2
    refine ⟨es, m1, g1, g2, ?_⟩
    rw [← pure_ok.mp h2, g4]
  · rintro ⟨es, m1, g1, g2, rfl⟩
    obtain ⟨_, g4⟩ := addOps_fields g2
    refine bind_ok.mpr ⟨_, (vocabLines_add (params := params)
      (p := { params with index := m.lexicons.length % 256 }) rfl rfl rfl lines m _).mpr
      ⟨es, m1, g1, g2, rfl⟩, pure_ok.mpr ?_⟩
    rw [← g4]

/-- The entries of a lexicon are determined by its lines. -/
theorem vocabLine_unique {params : VocabParams} {line : List Char} {e e' : List Char × Nat}
    (h : VocabLine params line e) (h' : VocabLine params line e') : e = e' := by
  obtain ⟨fs, h1, h2, h3⟩ := h
  obtain ⟨fs', h1', h2', h3'⟩ := h'
  rw [fieldsOf_iff] at h1 h1'
  rw [h1] at h1'
  subst h1'
  rw [h2] at h2'
  rw [← vocabFreq_iff] at h3 h3'
  rw [h3] at h3'
  obtain ⟨a, b⟩ := e
  obtain ⟨a', b'⟩ := e'
  cases h2'
  cases h3'
  rfl

example : ((Vm.new exAlphabet).readVocabulary ['f'] {} [some "ab\t7".toList, none, some [],
      some "b".toList]).map (fun m => (m.decoder.drop 3).map fun v => (v.text, v.frequency)) =
    .ok [(['a', 'b'], 7), (['b'], 1)] := by decide +kernel

/-! ## C67: variant lists -/

theorem variantFields_freq (parseF64 : List Char → Option Rat) (params : VocabParams) (refId : Nat)
    (n : Nat) : ∀ (fs : List (List Char)), fs.length ≤ n → ∀ (m m' : Vm),
    m.addWithFreq parseF64 params refId fs = .ok m' ↔
      ∃ vs, FreqFields parseF64 fs vs ∧ addVariants params refId m vs = .ok m' := by
  induction n with
  | zero =>
    intro fs hfs m m'
    have : fs = [] := by simpa using hfs
    subst this
    constructor
    · intro h; exact ⟨[], .nil, h⟩
    · rintro ⟨vs, h1, h2⟩; cases h1; exact h2
  | succ n ih =>
    intro fs hfs m m'
    match fs, hfs with
    | [], _ => exact ⟨fun h => ⟨[], .nil, h⟩, by rintro ⟨vs, h1, h2⟩; cases h1; exact h2⟩
    | [a], _ => exact ⟨fun h => ⟨[], .one, h⟩, by rintro ⟨vs, h1, h2⟩; cases h1; exact h2⟩
    | [a, b], _ => exact ⟨fun h => ⟨[], .two, h⟩, by rintro ⟨vs, h1, h2⟩; cases h1; exact h2⟩
    | v :: s :: f :: rest, hfs =>
      have hr : rest.length ≤ n := by simp at hfs; omega
      constructor
      · intro h
        rw [Vm.addWithFreq] at h
        cases hs : parseF64 s with
        | none => rw [hs] at h; cases h
        | some x =>
          rw [hs] at h
          simp only at h
          cases hf : parseUnsigned (2 ^ 32 - 1) f with
          | none => rw [hf] at h; cases h
          | some k =>
            rw [hf] at h
            obtain ⟨⟨m1, b⟩, h1, h2⟩ := bind_ok.mp h
            obtain ⟨vs, g1, g2⟩ := (ih rest hr m1 m').mp h2
            exact ⟨_, .cons hs ((parseUnsigned_iff _ _ _).mp hf) g1, bind_ok.mpr ⟨_, h1, g2⟩⟩
      · rintro ⟨vs, h1, h2⟩
        cases h1 with
        | cons hs hf g1 =>
          obtain ⟨⟨m1, b⟩, h3, h4⟩ := bind_ok.mp h2
          rw [Vm.addWithFreq, hs]
          simp only
          rw [(parseUnsigned_iff _ _ _).mpr hf]
          exact bind_ok.mpr ⟨_, h3, (ih rest hr m1 m').mpr ⟨_, g1, h4⟩⟩

theorem variantFields_plain (parseF64 : List Char → Option Rat) (params : VocabParams) (refId : Nat)
    (n : Nat) : ∀ (fs : List (List Char)), fs.length ≤ n → ∀ (m m' : Vm),
    m.addWithoutFreq parseF64 params refId fs = .ok m' ↔
      ∃ vs, PlainFields parseF64 fs vs ∧ addVariants params refId m vs = .ok m' := by
  induction n with
  | zero =>
    intro fs hfs m m'
    have : fs = [] := by simpa using hfs
    subst this
    constructor
    · intro h; exact ⟨[], .nil, h⟩
    · rintro ⟨vs, h1, h2⟩; cases h1; exact h2
  | succ n ih =>
    intro fs hfs m m'
    match fs, hfs with
    | [], _ => exact ⟨fun h => ⟨[], .nil, h⟩, by rintro ⟨vs, h1, h2⟩; cases h1; exact h2⟩
    | [a], _ => exact ⟨fun h => ⟨[], .one, h⟩, by rintro ⟨vs, h1, h2⟩; cases h1; exact h2⟩
    | v :: s :: rest, hfs =>
      have hr : rest.length ≤ n := by simp at hfs; omega
      constructor
      · intro h
        rw [Vm.addWithoutFreq] at h
        cases hs : parseF64 s with
        | none => rw [hs] at h; cases h
        | some x =>
          rw [hs] at h
          obtain ⟨⟨m1, b⟩, h1, h2⟩ := bind_ok.mp h
          obtain ⟨vs, g1, g2⟩ := (ih rest hr m1 m').mp h2
          exact ⟨_, .cons hs g1, bind_ok.mpr ⟨_, h1, g2⟩⟩
      · rintro ⟨vs, h1, h2⟩
        cases h1 with
        | cons hs g1 =>
          obtain ⟨⟨m1, b⟩, h3, h4⟩ := bind_ok.mp h2
          rw [Vm.addWithoutFreq, hs]
          exact bind_ok.mpr ⟨_, h3, (ih rest hr m1 m').mpr ⟨_, g1, h4⟩⟩

/-- One line in a file that is known to have frequencies. -/
theorem variantLine_freq (parseF64 : List Char → Option Rat) (params variantParams : VocabParams)
    (m m' : Vm) (line : List Char) (hl : line ≠ []) (k : Option Bool) :
    m.readVariantLine parseF64 params variantParams (some true) line = .ok (m', k) ↔
      k = some true ∧ ∃ e m1 id, FreqLine parseF64 line e ∧
        m.addToVocabulary e.reference e.freq params = .ok (m1, id) ∧
        addVariants variantParams id m1 e.variants = .ok m' := by
  rw [Vm.readVariantLine, if_neg (by simpa using hl)]
  constructor
  · intro h
    simp only at h
    cases hsp : splitChar '\t' line with
    | nil => exact absurd hsp (splitChar_ne_nil _ _)
    | cons r fs =>
      rw [hsp] at h
      simp only at h
      obtain ⟨⟨k', freq⟩, h1, h⟩ := bind_ok.mp h
      obtain ⟨⟨m1, id⟩, h2, h⟩ := bind_ok.mp h
      cases fs with
      | nil => cases h1
      | cons f fs =>
        rw [variantFreq] at h1
        simp only [List.getElem?_cons_succ, List.getElem?_cons_zero] at h1
        cases hf : parseUnsigned (2 ^ 32 - 1) f with
        | none => rw [hf] at h1; cases h1
        | some n =>
          rw [hf] at h1
          cases h1
          simp only [if_true] at h
          obtain ⟨m2, h3, h4⟩ := bind_ok.mp h
          cases pure_ok.mp h4
          obtain ⟨vs, g1, g2⟩ := (variantFields_freq parseF64 variantParams id _ _ (Nat.le_refl _) m1 _).mp h3
          exact ⟨rfl, _, m1, id, .mk ((fieldsOf_iff _ _).mpr hsp) ((parseUnsigned_iff _ _ _).mp hf) g1, h2, g2⟩
  · rintro ⟨rfl, e, m1, id, ⟨h1, h2, h3⟩, h4, h5⟩
    rw [fieldsOf_iff] at h1
    rw [h1]
    simp only
    rename_i r f n fs vs
    refine bind_ok.mpr ⟨(some true, some n), ?_, bind_ok.mpr ⟨_, h4, ?_⟩⟩
    · rw [variantFreq]
      simp only [List.getElem?_cons_succ, List.getElem?_cons_zero, (parseUnsigned_iff _ _ _).mpr h2]
    · simp only [if_true]
      refine bind_ok.mpr ⟨m', ?_, rfl⟩
      exact (variantFields_freq parseF64 variantParams id _ _ (Nat.le_refl _) m1 _).mpr ⟨_, h3, h5⟩

/-- The part of a line without frequencies that comes after the decision. -/
theorem variantLine_rest (parseF64 : List Char → Option Rat) (params variantParams : VocabParams)
    (m m' : Vm) (line r : List Char) (fs : List (List Char)) (hsp : splitChar '\t' line = r :: fs) :
    (∃ m1 id, m.addToVocabulary r none params = .ok (m1, id) ∧
      m1.addWithoutFreq parseF64 variantParams id fs = .ok m') ↔
      ∃ e m1 id, PlainLine parseF64 line e ∧
        m.addToVocabulary e.reference e.freq params = .ok (m1, id) ∧
        addVariants variantParams id m1 e.variants = .ok m' := by
  constructor
  · rintro ⟨m1, id, h1, h2⟩
    obtain ⟨vs, g1, g2⟩ := (variantFields_plain parseF64 variantParams id _ _ (Nat.le_refl _) m1 _).mp h2
    exact ⟨_, m1, id, .mk ((fieldsOf_iff _ _).mpr hsp) g1, h1, g2⟩
  · rintro ⟨e, m1, id, ⟨h1, h2⟩, h3, h4⟩
    rw [fieldsOf_iff, hsp] at h1
    cases h1
    exact ⟨m1, id, h3, (variantFields_plain parseF64 variantParams id _ _ (Nat.le_refl _) m1 _).mpr ⟨_, h2, h4⟩⟩

/-- One line in a file that is known to have no frequencies. -/
theorem variantLine_plain (parseF64 : List Char → Option Rat) (params variantParams : VocabParams)
    (m m' : Vm) (line : List Char) (hl : line ≠ []) (k : Option Bool) :
    m.readVariantLine parseF64 params variantParams (some false) line = .ok (m', k) ↔
      k = some false ∧ ∃ e m1 id, PlainLine parseF64 line e ∧
        m.addToVocabulary e.reference e.freq params = .ok (m1, id) ∧
        addVariants variantParams id m1 e.variants = .ok m' := by
  cases hsp : splitChar '\t' line with
  | nil => exact absurd hsp (splitChar_ne_nil _ _)
  | cons r fs =>
    rw [← variantLine_rest parseF64 params variantParams m m' line r fs hsp,
      Vm.readVariantLine, if_neg (by simpa using hl), hsp]
    constructor
    · intro h
      obtain ⟨⟨k', freq⟩, h1, h⟩ := bind_ok.mp h
      cases h1
      obtain ⟨⟨m1, id⟩, h2, h⟩ := bind_ok.mp h
      obtain ⟨m2, h3, h4⟩ := bind_ok.mp h
      cases pure_ok.mp h4
      exact ⟨rfl, m1, id, h2, h3⟩
    · rintro ⟨rfl, m1, id, h1, h2⟩
      exact bind_ok.mpr ⟨_, rfl, bind_ok.mpr ⟨_, h1, bind_ok.mpr ⟨_, h2, rfl⟩⟩⟩

/-- One line in a file of which nothing is known yet. -/
theorem variantLine_open (parseF64 : List Char → Option Rat) (params variantParams : VocabParams)
    (m m' : Vm) (line : List Char) (hl : line ≠ []) (k : Option Bool) :
    m.readVariantLine parseF64 params variantParams none line = .ok (m', k) ↔
      (∃ b, Tells line (some b) ∧
        m.readVariantLine parseF64 params variantParams (some b) line = .ok (m', k)) ∨
      (k = none ∧ Tells line none ∧ ∃ e m1 id, PlainLine parseF64 line e ∧
        m.addToVocabulary e.reference e.freq params = .ok (m1, id) ∧
        addVariants variantParams id m1 e.variants = .ok m') := by
  cases hsp : splitChar '\t' line with
  | nil => exact absurd hsp (splitChar_ne_nil _ _)
  | cons r fs =>
    have hfields := (fieldsOf_iff _ _).mpr hsp
    rw [← variantLine_rest parseF64 params variantParams m m' line r fs hsp]
    cases fs with
    | nil =>
      have hno : ∀ b, ¬ Tells line b := by
        intro b h
        cases h with
        | freq h1 _ _ => rw [fieldsOf_iff, hsp] at h1; cases h1
        | noFreq h1 _ => rw [fieldsOf_iff, hsp] at h1; cases h1
        | unknown h1 _ _ => rw [fieldsOf_iff, hsp] at h1; cases h1
      constructor
      · intro h
        rw [Vm.readVariantLine, if_neg (by simpa using hl), hsp] at h
        obtain ⟨⟨k', freq⟩, h1, h⟩ := bind_ok.mp h
        cases h1
      · rintro (⟨b, h, _⟩ | ⟨_, h, _⟩) <;> exact absurd h (hno _)
    | cons f fs =>
      have same : ∀ {r' f' : List Char} {fs' : List (List Char)}, FieldsOf line (r' :: f' :: fs') →
          f' = f ∧ fs' = fs := by
        intro r' f' fs' h
        rw [fieldsOf_iff, hsp] at h
        cases h
        exact ⟨rfl, rfl⟩
      have hlen : ¬ (r :: f :: fs).length < 2 := by simp
      have hmod : (r :: f :: fs).length - 2 = fs.length := by simp
      rw [Vm.readVariantLine, if_neg (by simpa using hl), hsp]
      simp only
      rw [variantFreq, if_neg hlen, hmod]
      by_cases h3 : fs.length % 3 = 0
      · rw [if_pos h3]
        simp only [List.getElem?_cons_succ, List.getElem?_cons_zero]
        cases hf : parseUnsigned (2 ^ 32 - 1) f with
        | some n =>
          have hn := (parseUnsigned_iff _ _ _).mp hf
          have ht : Tells line (some true) := .freq hfields h3 hn
          have huniq : ∀ b, Tells line b → b = some true := by
            intro b h
            cases h with
            | freq => rfl
            | noFreq h1 h2 => rw [(same h1).2] at h2; exact absurd h3 h2
            | unknown h1 h2 h4 => rw [(same h1).1] at h4; exact absurd hn (h4 n)
          have hrw : m.readVariantLine parseF64 params variantParams (some true) line =
              (do
                let (hasFreq, freq) ← (.ok (some true, some n) : Res (Option Bool × Option Nat))
                let (m, refId) ← m.addToVocabulary r freq params
                let m ← if hasFreq = some true then
                    m.addWithFreq parseF64 variantParams refId ((r :: f :: fs).drop 2)
                  else m.addWithoutFreq parseF64 variantParams refId ((r :: f :: fs).drop 1)
                return (m, hasFreq)) := by
            rw [Vm.readVariantLine, if_neg (by simpa using hl), hsp]
            simp only
            rw [variantFreq]
            simp only [List.getElem?_cons_succ, List.getElem?_cons_zero, hf]
          constructor
          · intro h
            exact .inl ⟨true, ht, by rw [hrw]; exact h⟩
          · rintro (⟨b, h1, h2⟩ | ⟨_, h, _⟩)
            · cases huniq _ h1
              rw [hrw] at h2
              exact h2
            · cases huniq _ h
        | none =>
          have hn : ∀ n, ¬ NumberText (2 ^ 32 - 1) f n := by
            intro n h
            rw [← parseUnsigned_iff, hf] at h
            cases h
          have ht : Tells line none := .unknown hfields h3 hn
          have huniq : ∀ b, Tells line b → b = none := by
            intro b h
            cases h with
            | freq h1 _ h4 => rw [(same h1).1] at h4; exact absurd h4 (hn _)
            | noFreq h1 h2 => rw [(same h1).2] at h2; exact absurd h3 h2
            | unknown => rfl
          constructor
          · intro h
            obtain ⟨⟨k', freq⟩, h1, h⟩ := bind_ok.mp h
            cases h1
            obtain ⟨⟨m1, id⟩, h2, h⟩ := bind_ok.mp h
            obtain ⟨m2, h3, h4⟩ := bind_ok.mp h
            cases pure_ok.mp h4
            exact .inr ⟨rfl, ht, m1, id, h2, h3⟩
          · rintro (⟨b, h1, h2⟩ | ⟨rfl, _, m1, id, h1, h2⟩)
            · cases huniq _ h1
            · exact bind_ok.mpr ⟨_, rfl, bind_ok.mpr ⟨_, h1, bind_ok.mpr ⟨_, h2, rfl⟩⟩⟩
      · rw [if_neg h3]
        have ht : Tells line (some false) := .noFreq hfields h3
        have huniq : ∀ b, Tells line b → b = some false := by
          intro b h
          cases h with
          | freq h1 h2 => rw [(same h1).2] at h2; exact absurd h2 h3
          | noFreq => rfl
          | unknown h1 h2 => rw [(same h1).2] at h2; exact absurd h2 h3
        have hrw : m.readVariantLine parseF64 params variantParams (some false) line =
            (do
              let (hasFreq, freq) ← (.ok (some false, none) : Res (Option Bool × Option Nat))
              let (m, refId) ← m.addToVocabulary r freq params
              let m ← if hasFreq = some true then
                  m.addWithFreq parseF64 variantParams refId ((r :: f :: fs).drop 2)
                else m.addWithoutFreq parseF64 variantParams refId ((r :: f :: fs).drop 1)
              return (m, hasFreq)) := by
          rw [Vm.readVariantLine, if_neg (by simpa using hl), hsp]
          rfl
        constructor
        · intro h
          exact .inl ⟨false, ht, by rw [hrw]; exact h⟩
        · rintro (⟨b, h1, h2⟩ | ⟨_, h, _⟩)
          · cases huniq _ h1
            rw [hrw] at h2
            exact h2
          · cases huniq _ h

theorem variantLines_add (parseF64 : List Char → Option Rat) (params variantParams : VocabParams)
    (lines : List (Option (List Char))) : ∀ (m m' : Vm) (k : Option Bool),
    m.readVariantLines parseF64 params variantParams k lines = .ok m' ↔
      ∃ es, VariantLines parseF64 k (nonEmpty lines) es ∧
        addEntries params variantParams m es = .ok m' := by
  induction lines with
  | nil =>
    intro m m' k
    constructor
    · intro h; exact ⟨[], .nil, h⟩
    · rintro ⟨es, h1, h2⟩
      cases h1
      exact h2
  | cons l lines ih =>
    intro m m' k
    cases l with
    | none => rw [Vm.readVariantLines, ih m m' k]; rfl
    | some l =>
      by_cases hl : l = []
      · subst hl
        rw [Vm.readVariantLines]
        simp only [Vm.readVariantLine, List.isEmpty_nil, if_true, bind, Except.bind]
        rw [ih m m' k]
        rfl
      · have hne : nonEmpty (some l :: lines) = l :: nonEmpty lines := by
          simp [nonEmpty, readable, hl]
        rw [hne, Vm.readVariantLines]
        have known : ∀ b : Bool, (do
            let (m, hasFreq) ← m.readVariantLine parseF64 params variantParams (some b) l
            Vm.readVariantLines parseF64 params variantParams m hasFreq lines) = .ok m' ↔
            ∃ es, VariantLines parseF64 (some b) (l :: nonEmpty lines) es ∧
              addEntries params variantParams m es = .ok m' := by
          intro b
          constructor
          · intro h
            obtain ⟨⟨m1, k1⟩, h1, h2⟩ := bind_ok.mp h
            cases b with
            | true =>
              obtain ⟨rfl, e, m2, id, g1, g2, g3⟩ :=
                (variantLine_freq parseF64 params variantParams m m1 l hl k1).mp h1
              obtain ⟨es, i1, i2⟩ := (ih _ _ _).mp h2
              exact ⟨e :: es, .freq g1 i1, bind_ok.mpr ⟨_, g2, bind_ok.mpr ⟨_, g3, i2⟩⟩⟩
            | false =>
              obtain ⟨rfl, e, m2, id, g1, g2, g3⟩ :=
                (variantLine_plain parseF64 params variantParams m m1 l hl k1).mp h1
              obtain ⟨es, i1, i2⟩ := (ih _ _ _).mp h2
              exact ⟨e :: es, .plain g1 i1, bind_ok.mpr ⟨_, g2, bind_ok.mpr ⟨_, g3, i2⟩⟩⟩
          · rintro ⟨es, h1, h2⟩
            cases h1 with
            | freq g1 i1 =>
              obtain ⟨⟨m2, id⟩, g2, h2⟩ := bind_ok.mp h2
              obtain ⟨m1, g3, i2⟩ := bind_ok.mp h2
              exact bind_ok.mpr ⟨_, (variantLine_freq parseF64 params variantParams m m1 l hl _).mpr
                ⟨rfl, _, _, _, g1, g2, g3⟩, (ih _ _ _).mpr ⟨_, i1, i2⟩⟩
            | plain g1 i1 =>
              obtain ⟨⟨m2, id⟩, g2, h2⟩ := bind_ok.mp h2
              obtain ⟨m1, g3, i2⟩ := bind_ok.mp h2
              exact bind_ok.mpr ⟨_, (variantLine_plain parseF64 params variantParams m m1 l hl _).mpr
                ⟨rfl, _, _, _, g1, g2, g3⟩, (ih _ _ _).mpr ⟨_, i1, i2⟩⟩
        cases k with
        | some b => exact known b
        | none =>
          constructor
          · intro h
            obtain ⟨⟨m1, k1⟩, h1, h2⟩ := bind_ok.mp h
            rcases (variantLine_open parseF64 params variantParams m m1 l hl k1).mp h1 with
              ⟨b, t, h3⟩ | ⟨rfl, t, e, m2, id, g1, g2, g3⟩
            · obtain ⟨es, i1, i2⟩ := (known b).mp (bind_ok.mpr ⟨_, h3, h2⟩)
              exact ⟨es, .tells t i1, i2⟩
            · obtain ⟨es, i1, i2⟩ := (ih _ _ _).mp h2
              exact ⟨e :: es, .unknown t g1 i1, bind_ok.mpr ⟨_, g2, bind_ok.mpr ⟨_, g3, i2⟩⟩⟩
          · rintro ⟨es, h1, h2⟩
            cases h1 with
            | unknown t g1 i1 =>
              obtain ⟨⟨m2, id⟩, g2, h2⟩ := bind_ok.mp h2
              obtain ⟨m1, g3, i2⟩ := bind_ok.mp h2
              exact bind_ok.mpr ⟨_, (variantLine_open parseF64 params variantParams m m1 l hl _).mpr
                (.inr ⟨rfl, t, _, _, _, g1, g2, g3⟩), (ih _ _ _).mpr ⟨_, i1, i2⟩⟩
            | tells t i1 =>
              obtain ⟨⟨m1, k1⟩, h3, h4⟩ := bind_ok.mp ((known _).mpr ⟨es, i1, h2⟩)
              exact bind_ok.mpr ⟨_, (variantLine_open parseF64 params variantParams m m1 l hl _).mpr
                (.inl ⟨_, t, h3⟩), h4⟩

theorem run_append_ok {m m1 m2 : Vm} {ops ops' : List Op} (h : m.run ops = .ok m1)
    (h' : m1.run ops' = .ok m2) : m.run (ops ++ ops') = .ok m2 := by
  induction ops generalizing m with
  | nil => cases h; exact h'
  | cons op ops ih =>
    obtain ⟨m3, h1, h2⟩ := bind_ok.mp h
    exact bind_ok.mpr ⟨m3, h1, ih h2⟩

theorem addVariants_run {params : VocabParams} {refId : Nat} {m m' : Vm}
    {vs : List (List Char × Rat × Option Nat)} (h : addVariants params refId m vs = .ok m') :
    m.run (vs.map fun v => .addVariant refId v.1 v.2.1 v.2.2 params) = .ok m' ∧
      m'.lexicons = m.lexicons := by
  induction vs generalizing m with
  | nil => cases h; exact ⟨rfl, rfl⟩
  | cons v vs ih =>
    obtain ⟨⟨m1, b⟩, h1, h2⟩ := bind_ok.mp h
    obtain ⟨i1, i2⟩ := ih h2
    refine ⟨bind_ok.mpr ⟨m1, bind_ok.mpr ⟨_, h1, rfl⟩, i1⟩, i2.trans ?_⟩
    obtain ⟨⟨m2, id⟩, h3, h4⟩ := bind_ok.mp h1
    have h5 := congrArg Prod.fst (pure_ok.mp h4)
    simp only at h5
    rw [← h5, (addVariantById_core m2 refId id v.2.1).1]
    exact (add_fields h3).2

/-- Histories of what reading a variant list does. -/
theorem addEntries_run {params variantParams : VocabParams} {m m' : Vm} {es : List VariantEntry}
    (h : addEntries params variantParams m es = .ok m') :
    (∃ ops, m.run ops = .ok m') ∧ m'.lexicons = m.lexicons := by
  induction es generalizing m with
  | nil => cases h; exact ⟨⟨[], rfl⟩, rfl⟩
  | cons e es ih =>
    obtain ⟨⟨m1, id⟩, h1, h⟩ := bind_ok.mp h
    obtain ⟨m2, h2, h3⟩ := bind_ok.mp h
    obtain ⟨⟨ops, i1⟩, i2⟩ := ih h3
    obtain ⟨g1, g2⟩ := addVariants_run h2
    refine ⟨⟨.add e.reference e.freq params :: (_ ++ ops),
      bind_ok.mpr ⟨m1, bind_ok.mpr ⟨_, h1, rfl⟩, run_append_ok g1 i1⟩⟩, ?_⟩
    rw [i2, g2, (add_fields h1).2]

theorem addEntries_lexicons {params variantParams : VocabParams} {m m' : Vm} {es : List VariantEntry}
    (h : addEntries params variantParams m es = .ok m') : m'.lexicons = m.lexicons :=
  (addEntries_run h).2

/-- **C67**: reading a variant list has the effect of adding, for each line that is not empty, the
reference and then its variants with links to it, under the next index; `VariantLines` says how lines
are read, with and without frequencies. -/
theorem read_variants (m : Vm) (parseF64 : List Char → Option Rat) (filename : List Char)
    (params : Option VocabParams) (transparent : Bool) (lines : List (Option (List Char))) (m' : Vm) :
    m.readVariants parseF64 filename params transparent lines = .ok m' ↔
      ∃ es m1, VariantLines parseF64 none (nonEmpty lines) es ∧
        addEntries { params.getD {} with index := m.lexicons.length % 256 }
          { params.getD {} with
            index := m.lexicons.length % 256
            vocabType := { (params.getD {}).vocabType with
              transparent := (params.getD {}).vocabType.transparent || transparent } } m es = .ok m1 ∧
        m' = { m1 with lexicons := m.lexicons ++ [filename] } := by
  have hp : (if transparent = true then
        { ({ params.getD {} with index := m.lexicons.length % 256 } : VocabParams) with
          vocabType := (params.getD {}).vocabType.union .TRANSPARENT }
      else { params.getD {} with index := m.lexicons.length % 256 }) =
      ({ params.getD {} with
            index := m.lexicons.length % 256
            vocabType := { (params.getD {}).vocabType with
              transparent := (params.getD {}).vocabType.transparent || transparent } } : VocabParams) := by
    cases transparent with
    | true => simp [VocabType.union, VocabType.TRANSPARENT]
    | false => simp
  unfold Vm.readVariants
  simp only [hp]
  constructor
  · intro h
    obtain ⟨m1, h1, h2⟩ := bind_ok.mp h
    obtain ⟨es, g1, g2⟩ := (variantLines_add _ _ _ _ _ _ _).mp h1
    refine ⟨es, m1, g1, g2, ?_⟩
    rw [← pure_ok.mp h2, addEntries_lexicons g2]
  · rintro ⟨es, m1, g1, g2, rfl⟩
    refine bind_ok.mpr ⟨m1, (variantLines_add _ _ _ _ _ _ _).mpr ⟨es, g1, g2⟩, pure_ok.mpr ?_⟩
    rw [addEntries_lexicons g2]

theorem plainFields_unique {parseF64 : List Char → Option Rat} {fs : List (List Char)}
    {vs vs' : List (List Char × Rat × Option Nat)} (h : PlainFields parseF64 fs vs)
    (h' : PlainFields parseF64 fs vs') : vs = vs' := by
  induction h generalizing vs' with
  | nil => cases h'; rfl
  | one => cases h'; rfl
  | cons hs _ ih =>
    cases h' with
    | cons hs' h2 =>
      rw [hs] at hs'
      cases hs'
      rw [ih h2]

theorem numberText_unique {max v v' : Nat} {s : List Char} (h : NumberText max s v)
    (h' : NumberText max s v') : v = v' := by
  rw [← parseUnsigned_iff] at h h'
  rw [h] at h'
  cases h'
  rfl

theorem freqFields_unique {parseF64 : List Char → Option Rat} {fs : List (List Char)}
    {vs vs' : List (List Char × Rat × Option Nat)} (h : FreqFields parseF64 fs vs)
    (h' : FreqFields parseF64 fs vs') : vs = vs' := by
  induction h generalizing vs' with
  | nil => cases h'; rfl
  | one => cases h'; rfl
  | two => cases h'; rfl
  | cons hs hn _ ih =>
    cases h' with
    | cons hs' hn' h2 =>
      rw [hs] at hs'
      cases hs'
      rw [ih h2, numberText_unique hn hn']

theorem plainLine_unique {parseF64 : List Char → Option Rat} {line : List Char} {e e' : VariantEntry}
    (h : PlainLine parseF64 line e) (h' : PlainLine parseF64 line e') : e = e' := by
  obtain ⟨h1, h2⟩ := h
  obtain ⟨h1', h2'⟩ := h'
  rw [fieldsOf_iff] at h1 h1'
  rw [h1] at h1'
  cases h1'
  rw [plainFields_unique h2 h2']

theorem freqLine_unique {parseF64 : List Char → Option Rat} {line : List Char} {e e' : VariantEntry}
    (h : FreqLine parseF64 line e) (h' : FreqLine parseF64 line e') : e = e' := by
  obtain ⟨h1, hn, h2⟩ := h
  obtain ⟨h1', hn', h2'⟩ := h'
  rw [fieldsOf_iff] at h1 h1'
  rw [h1] at h1'
  cases h1'
  rw [freqFields_unique h2 h2', numberText_unique hn hn']

theorem tells_unique {line : List Char} {b b' : Option Bool} (h : Tells line b) (h' : Tells line b') :
    b = b' := by
  have same : ∀ {r f r' f' : List Char} {fs fs' : List (List Char)}, FieldsOf line (r :: f :: fs) →
      FieldsOf line (r' :: f' :: fs') → f = f' ∧ fs = fs' := by
    intro r f r' f' fs fs' h1 h2
    rw [fieldsOf_iff] at h1 h2
    rw [h1] at h2
    cases h2
    exact ⟨rfl, rfl⟩
  cases h with
  | freq a1 a2 a3 =>
    cases h' with
    | freq => rfl
    | noFreq b1 b2 => rw [← (same a1 b1).2] at b2; exact absurd a2 b2
    | unknown b1 b2 b3 => rw [← (same a1 b1).1] at b3; exact absurd a3 (b3 _)
  | noFreq a1 a2 =>
    cases h' with
    | freq b1 b2 b3 => rw [← (same a1 b1).2] at b2; exact absurd b2 a2
    | noFreq => rfl
    | unknown b1 b2 b3 => rw [← (same a1 b1).2] at b2; exact absurd b2 a2
  | unknown a1 a2 a3 =>
    cases h' with
    | freq b1 b2 b3 => rw [← (same a1 b1).1] at b3; exact absurd b3 (a3 _)
    | noFreq b1 b2 => rw [← (same a1 b1).2] at b2; exact absurd a2 b2
    | unknown => rfl

/-- The entries of a variant list are determined by its lines. -/
theorem variantLines_unique {parseF64 : List Char → Option Rat} {k : Option Bool}
    {ls : List (List Char)} {es es' : List VariantEntry} (h : VariantLines parseF64 k ls es)
    (h' : VariantLines parseF64 k ls es') : es = es' := by
  induction h generalizing es' with
  | nil => cases h'; rfl
  | unknown t p _ ih =>
    cases h' with
    | unknown t' p' h2 => rw [ih h2, plainLine_unique p p']
    | tells t' h2 => cases tells_unique t t'
  | tells t _ ih =>
    cases h' with
    | unknown t' p' h2 => cases tells_unique t t'
    | tells t' h2 =>
      cases tells_unique t t'
      exact ih h2
  | freq p _ ih =>
    cases h' with
    | freq p' h2 => rw [ih h2, freqLine_unique p p']
  | plain p _ ih =>
    cases h' with
    | plain p' h2 => rw [ih h2, plainLine_unique p p']

/-- A list in which every line has frequencies, and the first line tells so, is read as such. -/
theorem variantLines_freq {parseF64 : List Char → Option Rat} {l : List Char} {ls : List (List Char)}
    {es : List VariantEntry} (ht : Tells l (some true))
    (h : List.Forall₂ (FreqLine parseF64) (l :: ls) es) : VariantLines parseF64 none (l :: ls) es := by
  refine .tells ht ?_
  clear ht
  generalize l :: ls = ls' at h
  induction h with
  | nil => exact .nil
  | cons h1 _ ih => exact .freq h1 ih

/-- A list in which no line has frequencies is read as such, unless a line with one, four, … variants
begins with a variant that is a number. -/
theorem variantLines_plain {parseF64 : List Char → Option Rat} {ls : List (List Char)}
    {es : List VariantEntry} (ht : ∀ l ∈ ls, ∃ b, Tells l b ∧ b ≠ some true)
    (h : List.Forall₂ (PlainLine parseF64) ls es) : VariantLines parseF64 none ls es := by
  induction h with
  | nil => exact .nil
  | @cons l e ls es h1 h2 ih =>
    obtain ⟨b, hb1, hb2⟩ := ht l (by simp)
    match b, hb1, hb2 with
    | none, hb1, _ => exact .unknown hb1 h1 (ih fun l' h' => ht l' (by simp [h']))
    | some true, _, hb2 => exact absurd rfl hb2
    | some false, hb1, _ =>
      refine .tells hb1 (.plain h1 ?_)
      clear ih hb1 hb2 h1 ht
      induction h2 with
      | nil => exact .nil
      | cons h1 _ ih => exact .plain h1 ih

theorem addVariants_links {params : VocabParams} {refId : Nat} {m m' : Vm}
    {vs : List (List Char × Rat × Option Nat)} (hinv : Inv m) (hn : NoSelf m)
    (hr : refId < m.decoder.length) (h : addVariants params refId m vs = .ok m') :
    ∀ v ∈ vs, ∃ id, m'.encoder.get? v.1 = some id ∧ (id ≠ refId →
      (∃ s, HasLink m' refId (.referenceFor id s)) ∧ HasLink m' id (.variantOf refId v.2.1)) := by
  induction vs generalizing m with
  | nil => simp
  | cons v vs ih =>
    obtain ⟨⟨m1, b⟩, h1, h2⟩ := bind_ok.mp h
    obtain ⟨⟨m2, id⟩, h3, h4⟩ := bind_ok.mp h1
    have h5 := congrArg Prod.fst (pure_ok.mp h4)
    simp only at h5
    obtain ⟨a1, a2, a3⟩ := inv_add hinv h3
    have hn2 := (linkExt_add h3).noSelf hn
    obtain ⟨b1, b2, b3⟩ := inv_addVariantById a1 refId id v.2.1
    have hn1 := (linkExt_addVariantById m2 refId id v.2.1).noSelf hn2
    have hlen := (addVariantById_core m2 refId id v.2.1).2.1
    have hr2 : refId < m2.decoder.length := by
      have : textAt m refId = some (m.decoder[refId]).text := by simp [textAt, hr]
      exact textAt_lt (a2.2 _ _ this)
    rw [h5] at b1 b2 hn1 hlen
    have hrun := (addVariants_run h2).1
    obtain ⟨c1, c2⟩ := inv_run b1 hrun
    intro w hw
    rcases List.mem_cons.mp hw with rfl | hw
    · refine ⟨id, (c1.bij _ _).mpr (c2.2 _ _ (b2.2 _ _ ((a1.bij _ _).mp a3))), fun hne => ?_⟩
      obtain ⟨⟨s, d1⟩, d2⟩ := addVariantById_made hn2 hne hr2 (textAt_lt ((a1.bij _ _).mp a3)) w.2.1
      rw [h5] at d1 d2
      exact ⟨⟨s, (linkExt_run hrun).mono _ _ d1⟩, (linkExt_run hrun).mono _ _ d2⟩
    · exact ih b1 hn1 (by omega) h2 w hw

/-- **C67**: after reading a variant list, every variant of a line is in the vocabulary and linked to
its reference with its score, unless the two are equal. -/
theorem read_variants_links {alphabet : Alphabet} {ops : List Op} {m m' : Vm}
    (hm : (Vm.new alphabet).run ops = .ok m) {parseF64 : List Char → Option Rat}
    {filename : List Char} {params : Option VocabParams} {transparent : Bool}
    {lines : List (Option (List Char))} {es : List VariantEntry}
    (h : m.readVariants parseF64 filename params transparent lines = .ok m')
    (hes : VariantLines parseF64 none (nonEmpty lines) es) :
    ∀ e ∈ es, ∃ ref, m'.encoder.get? e.reference = some ref ∧
      ∀ v ∈ e.variants, ∃ id, m'.encoder.get? v.1 = some id ∧ (v.1 ≠ e.reference →
        (∃ s, HasLink m' ref (.referenceFor id s)) ∧ HasLink m' id (.variantOf ref v.2.1)) := by
  obtain ⟨es', m1, h1, h2, rfl⟩ := (read_variants _ _ _ _ _ _ _).mp h
  cases variantLines_unique hes h1
  clear h h1 hes
  have hinv := (inv_run (inv_new alphabet) hm).1
  have hn := (linkExt_run hm).noSelf (noSelf_new alphabet)
  show ∀ e ∈ es, ∃ ref, m1.encoder.get? e.reference = some ref ∧
      ∀ v ∈ e.variants, ∃ id, m1.encoder.get? v.1 = some id ∧ (v.1 ≠ e.reference →
        (∃ s, HasLink m1 ref (.referenceFor id s)) ∧ HasLink m1 id (.variantOf ref v.2.1))
  clear hm
  generalize m.lexicons.length = k at h2
  induction es generalizing m with
  | nil => simp
  | cons e es ih =>
    obtain ⟨⟨m2, ref⟩, h3, h4⟩ := bind_ok.mp h2
    obtain ⟨m3, h5, h6⟩ := bind_ok.mp h4
    obtain ⟨a1, a2, a3⟩ := inv_add hinv h3
    have hn2 := (linkExt_add h3).noSelf hn
    obtain ⟨b1, b2⟩ := inv_run a1 (addVariants_run h5).1
    have hn3 := (linkExt_run (addVariants_run h5).1).noSelf hn2
    obtain ⟨⟨ops', h7⟩, _⟩ := addEntries_run h6
    obtain ⟨c1, c2⟩ := inv_run b1 h7
    have hl := linkExt_run h7
    intro e' he'
    rcases List.mem_cons.mp he' with rfl | he'
    · have hlast : m1.encoder.get? e'.reference = some ref :=
        (c1.bij _ _).mpr (c2.2 _ _ (b2.2 _ _ ((a1.bij _ _).mp a3)))
      refine ⟨ref, hlast, fun v hv => ?_⟩
      obtain ⟨id, d1, d2⟩ := addVariants_links a1 hn2 (textAt_lt ((a1.bij _ _).mp a3)) h5 v hv
      refine ⟨id, (c1.bij _ _).mpr (c2.2 _ _ ((b1.bij _ _).mp d1)), fun hne => ?_⟩
      have : id ≠ ref := by
        rintro rfl
        have e1 := (b1.bij _ _).mp d1
        have e2 := b2.2 _ _ ((a1.bij _ _).mp a3)
        rw [e1] at e2
        exact hne (Option.some.inj e2)
      obtain ⟨⟨s, f1⟩, f2⟩ := d2 this
      exact ⟨⟨s, hl.mono _ _ f1⟩, hl.mono _ _ f2⟩
    · exact ih (m := m3) b1 hn3 h6 e' he'

/-- Scores for the examples. -/
def exParseF64 (s : List Char) : Option Rat :=
  if s = "0.5".toList then some (1 / 2) else if s = "0.9".toList then some (9 / 10) else none

/-- What is left of an entry for the examples. -/
def exEntry (v : VocabValue) : (List Char × Nat) × Option (List VariantReference) :=
  ((v.text, v.frequency), v.variants)

example : ((Vm.new exAlphabet).readVariants exParseF64 ['f'] none true
      [some "ab\t7\tb\t0.5\t3\ta\t0.9\t2".toList, none, some []]).map
        (fun m => (m.decoder.drop 3).map exEntry) =
    .ok [((['a', 'b'], 7), some [.referenceFor 4 (1 / 2), .referenceFor 5 (9 / 10)]),
      ((['b'], 3), some [.variantOf 3 (1 / 2)]), ((['a'], 2), some [.variantOf 3 (9 / 10)])] := by
  decide +kernel

example : ((Vm.new exAlphabet).readVariants exParseF64 ['f'] none false
      [some "ab\tb\t0.5\ta\t0.9".toList]).map (fun m => (m.decoder.drop 3).map exEntry) =
    .ok [((['a', 'b'], 1), some [.referenceFor 4 (1 / 2), .referenceFor 5 (9 / 10)]),
      ((['b'], 1), some [.variantOf 3 (1 / 2)]), ((['a'], 1), some [.variantOf 3 (9 / 10)])] := by
  decide +kernel

/-- **C67** fails: a first line without variants panics, and so does a list without frequencies in
which a line with two variants begins with a variant that is a number. -/
theorem variant_list_misread :
    ((Vm.new exAlphabet).readVariants exParseF64 ['f'] none false [some "ab".toList]).map
      (·.decoder) = .error .overflow ∧
    (∃ e, PlainLine exParseF64 "ab\t1984\t0.5\tb\t0.9".toList e ∧
      e.variants.map (·.1) = ["1984".toList, ['b']]) ∧
    ((Vm.new exAlphabet).readVariants exParseF64 ['f'] none false
      [some "ab\t1984\t0.5\tb\t0.9".toList]).map (·.decoder) = .error .expect := by
  refine ⟨by decide +kernel, ⟨⟨['a', 'b'], none, [("1984".toList, 1 / 2, none), (['b'], 9 / 10, none)]⟩, ?_, rfl⟩,
    by decide +kernel⟩
  exact .mk (r := ['a', 'b']) (fs := ["1984".toList, "0.5".toList, ['b'], "0.9".toList])
    ((fieldsOf_iff _ _).mpr (by decide +kernel))
    (.cons (by decide +kernel) (.cons (by decide +kernel) .nil))

end Verif.Props
