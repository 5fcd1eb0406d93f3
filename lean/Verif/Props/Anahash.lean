import Verif.Lemmas.Encode
import Verif.Lemmas.Iter

/-!
# Properties of anagram values (C01 – C08)

`Encodes alphabet unk text codes` (Spec/Alphabet.lean) is the greedy segmentation of a text into
symbol codes; `bagValue` (Spec/Bag.lean) is the product of the primes of a bag of symbols.
-/
namespace Verif.Props

open Verif.Spec Verif.Model Verif.Lemmas

/-- An alphabet used in the examples: lines `a A`, `b`, `ij`. -/
def exAlphabet : Alphabet := [[['a'], ['A']], [['b']], [['i', 'j']]]

/-- The encoding used in the examples: `"Aij?"` is line 0, line 2, unknown. -/
theorem ex_encodes (unk : Nat) :
    Encodes exAlphabet unk ['A', 'i', 'j', '?'] [0, 2, unk] := by
  refine .hit (e := ['A']) ⟨⟨[['a']], [], rfl, by decide⟩, by decide, by simp⟩ (by simp) ?_
  refine .hit (e := ['i', 'j']) ⟨⟨[], [], rfl, by decide⟩, by decide, ?_⟩ (by simp) ?_
  · intro j hj entry he x hx
    match j, hj with
    | 0, _ => cases he; revert x; decide
    | 1, _ => cases he; revert x; decide
  · exact .miss (by decide) .nil

theorem ex_encodes' (unk : Nat) :
    Encodes exAlphabet unk ['?', 'i', 'j', 'a'] [unk, 2, 0] := by
  refine .miss (by decide) ?_
  refine .hit (e := ['i', 'j']) ⟨⟨[], [], rfl, by decide⟩, by decide, ?_⟩ (by simp) ?_
  · intro j hj entry he x hx
    match j, hj with
    | 0, _ => cases he; revert x; decide
    | 1, _ => cases he; revert x; decide
  · exact .hit (e := ['a']) ⟨⟨[], [['A']], rfl, by simp⟩, by decide, by simp⟩ (by simp) .nil

/-! ## C02: the encoding -/

/-- Every text has exactly one greedy encoding (so the theorems below speak about all texts). -/
theorem encoding_exists_unique (alphabet : Alphabet) (hne : NoEmpty alphabet) (unk : Nat)
    (text : List Char) : ∃! codes, Encodes alphabet unk text codes := by
  obtain ⟨codes, h⟩ := encodes_exists hne unk text
  exact ⟨codes, h, fun codes' h' => encodes_unique h' h⟩

/-- **C02**: `normalize_to_alphabet` computes exactly the greedy encoding, with unknown characters
encoded as the number of lines plus one. -/
theorem normalize_is_greedy_encoding (alphabet : Alphabet) (hne : NoEmpty alphabet)
    (hlen : alphabet.length ≤ 254) (text : List Char) (codes : List Nat) :
    normalizeToAlphabet alphabet text = .ok codes ↔
      Encodes alphabet (alphabet.length + 1) text codes := by
  obtain ⟨codes', h⟩ := encodes_exists hne (alphabet.length + 1) text
  constructor
  · intro h'
    rw [normalize_eq hlen h] at h'
    cases h'; exact h
  · exact normalize_eq hlen

example : normalizeToAlphabet exAlphabet ['A', 'i', 'j', '?'] = .ok [0, 2, 4] :=
  (normalize_is_greedy_encoding exAlphabet (by decide) (by decide) _ _).mpr (ex_encodes 4)

/-- **C02**, consequence: replacing a string by another string of the same line changes nothing,
provided the segmentation goes through these strings. -/
theorem normalize_equivalent_strings (alphabet : Alphabet) (hne : NoEmpty alphabet)
    (hlen : alphabet.length ≤ 254) (i : Nat) (e e' rest rest' : List Char)
    (h : FirstMatch alphabet (e ++ rest) i e) (h' : FirstMatch alphabet (e' ++ rest') i e')
    (hn : e ≠ []) (hn' : e' ≠ [])
    (hrest : normalizeToAlphabet alphabet rest = normalizeToAlphabet alphabet rest') :
    normalizeToAlphabet alphabet (e ++ rest) = normalizeToAlphabet alphabet (e' ++ rest') := by
  obtain ⟨codes, hc⟩ := encodes_exists hne (alphabet.length + 1) rest
  have hc' : Encodes alphabet (alphabet.length + 1) rest' codes := by
    rw [← normalize_is_greedy_encoding alphabet hne hlen, ← hrest]
    exact normalize_eq hlen hc
  rw [normalize_eq hlen (.hit h hn hc), normalize_eq hlen (.hit h' hn' hc')]

example : normalizeToAlphabet exAlphabet ['A', 'b'] = normalizeToAlphabet exAlphabet ['a', 'b'] :=
  normalize_equivalent_strings exAlphabet (by decide) (by decide) 0 ['A'] ['a'] ['b'] ['b']
    ⟨⟨[['a']], [], rfl, by decide⟩, by decide, by simp⟩
    ⟨⟨[], [['A']], rfl, by simp⟩, by decide, by simp⟩ (by decide) (by decide) rfl

/-! ## C01: anagram values identify the anagrams -/

/-- **C01**: two texts have equal anagram values iff their encodings are permutations of one
another. -/
theorem anahash_eq_iff_anagram (alphabet : Alphabet) (hlen : alphabet.length ≤ 167)
    (s t : List Char) (cs ct : List Nat) (hs : Encodes alphabet alphabet.length s cs)
    (ht : Encodes alphabet alphabet.length t ct) :
    anahash alphabet s = anahash alphabet t ↔ cs.Perm ct := by
  rw [anahash_eq hlen hs, anahash_eq hlen ht]
  rw [← bagValue_inj (Within.mono (encodes_within hs) (by omega))
    (Within.mono (encodes_within ht) (by omega))]
  constructor
  · intro h; injection h
  · intro h; rw [h]

example : anahash exAlphabet ['A', 'i', 'j', '?'] = anahash exAlphabet ['?', 'i', 'j', 'a'] :=
  (anahash_eq_iff_anagram exAlphabet (by decide) _ _ _ _ (ex_encodes 3) (ex_encodes' 3)).mpr
    (by decide)

/-- The anagram value is the product of the primes of the symbols. -/
theorem anahash_value (alphabet : Alphabet) (hlen : alphabet.length ≤ 167) (s : List Char)
    (cs : List Nat) (hs : Encodes alphabet alphabet.length s cs) :
    anahash alphabet s = .ok (bagValue cs) := anahash_eq hlen hs

example : anahash exAlphabet ['A', 'i', 'j', '?'] = .ok (2 * 5 * 7) :=
  anahash_value exAlphabet (by decide) _ _ (ex_encodes 3)

/-- Known texts (no unknown character): equal normalised strings have equal anagram values, and
texts without unknown characters have the same codes in both. -/
theorem anahash_normalize_agree (alphabet : Alphabet) (hne : NoEmpty alphabet)
    (hlen : alphabet.length ≤ 167) (s : List Char) (codes : List Nat)
    (h : normalizeToAlphabet alphabet s = .ok codes) :
    anahash alphabet s =
      .ok (bagValue (codes.map fun c => if c < alphabet.length then c else alphabet.length)) := by
  rw [normalize_is_greedy_encoding alphabet hne (by omega)] at h
  rcases encodes_change h alphabet.length with h' | h'
  · exact anahash_eq hlen h'
  · omega

example : anahash exAlphabet ['b', '?'] = .ok (3 * 7) :=
  anahash_normalize_agree exAlphabet (by decide) (by decide) ['b', '?'] [1, 4] (by decide)

/-! ## C03: algebra -/

/-- **C03**: inserting is bag union. -/
theorem insert_is_union (a b : List Nat) (ha : Within 168 a) :
    anaInsert (bagValue a) (bagValue b) = bagValue (a ++ b) := by
  have := bagValue_pos ha
  rw [anaInsert, if_neg (by omega), bagValue_append]

/-- **C03**: containment is bag inclusion. -/
theorem contains_iff_subbag (a b : List Nat) (ha : Within 168 a) (hb : Within 168 b) :
    ∃ r, anaContains (bagValue a) (bagValue b) = .ok r ∧ (r = true ↔ b.Subperm a) := by
  refine ⟨_, anaContains_eq hb ha, ?_⟩
  rw [decide_eq_true_iff, dvd_iff_subperm hb ha]

/-- **C03**: deletion is bag difference, defined exactly on sub-bags. -/
theorem delete_is_difference (a b : List Nat) (ha : Within 168 a) (hb : Within 168 b) :
    (∀ c : List Nat, (b ++ c).Perm a → anaDelete (bagValue a) (bagValue b) = .ok (some (bagValue c))) ∧
    (¬ b.Subperm a → anaDelete (bagValue a) (bagValue b) = .ok none) :=
  ⟨fun _ h => anaDelete_bag h ha, anaDelete_none hb ha⟩

/-- **C03**: every sub-bag has a difference (the first case of `delete_is_difference` applies). -/
theorem delete_defined (a b : List Nat) (ha : Within 168 a) :
    b.Subperm a → ∃ c : List Nat, (b ++ c).Perm a ∧
      anaDelete (bagValue a) (bagValue b) = .ok (some (bagValue c)) := by
  intro h
  obtain ⟨c, hc⟩ := subperm_exists_append h
  exact ⟨c, hc, anaDelete_bag hc ha⟩

/-- **C03**: the empty value is that of the empty bag, and only of it. -/
theorem empty_is_empty_bag (a : List Nat) (ha : Within 168 a) :
    anaEmpty = bagValue [] ∧ (anaIsEmpty (bagValue a) = true ↔ a = []) := by
  refine ⟨rfl, ?_⟩
  have := bagValue_pos ha
  simp only [anaIsEmpty, Bool.or_eq_true, decide_eq_true_eq]
  rw [bagValue_eq_one ha]
  constructor
  · rintro (h | h)
    · exact h
    · omega
  · exact .inl

/-- **C03**: equal values, equal bags. -/
theorem value_inj (a b : List Nat) (ha : Within 168 a) (hb : Within 168 b) :
    bagValue a = bagValue b ↔ a.Perm b := bagValue_inj ha hb

example : anaInsert (bagValue [0, 3]) (bagValue [3, 5]) = bagValue [0, 3, 3, 5] ∧
    anaDelete (bagValue [0, 3, 3, 5]) (bagValue [5, 3]) = .ok (some (bagValue [3, 0])) ∧
    anaDelete (bagValue [0, 3, 5]) (bagValue [3, 3]) = .ok none :=
  ⟨insert_is_union [0, 3] [3, 5] (by decide),
   (delete_is_difference [0, 3, 3, 5] [5, 3] (by decide)
     (by decide)).1 [3, 0] (by decide),
   (delete_is_difference [0, 3, 5] [3, 3] (by decide)
     (by decide)).2 (by
       intro h
       have := List.Subperm.count_le h 3
       revert this; decide)⟩

/-- The value zero (which `Default` gives but no text has): asking whether it is contained panics. -/
theorem contains_zero_panics (a : Nat) : anaContains a 0 = .error .divZero := by
  simp [anaContains]

/-! ## C04: counting -/

/-- **C04**: `char_count` is the number of symbols (it is a 16-bit number). -/
theorem char_count_exact (a : List Nat) (asz : Nat) (hasz : asz ≤ 168) (ha : Within asz a)
    (hlen : a.length < 65536) : charCount (bagValue a) asz = .ok a.length := by
  rw [charCount_bag hasz ha, Nat.mod_eq_of_lt hlen]

/-- **C04**: `alphabet_upper_bound` gives the largest symbol and the number of symbols. -/
theorem alphabet_upper_bound_exact (a : List Nat) (asz : Nat) (hasz : asz ≤ 168)
    (ha : Within asz a) (hlen : a.length < 65536) :
    ∃ m, alphabetUpperBound (bagValue a) asz = .ok (m, a.length) ∧
      (∀ i ∈ a, i ≤ m) ∧ (a ≠ [] → m ∈ a) ∧ (a = [] → m = 0) := by
  have key : ∀ (l : List Nat) (m : Nat), m ≤ l.foldl max m ∧ (∀ i ∈ l, i ≤ l.foldl max m) ∧
      (l.foldl max m ∈ l ∨ l.foldl max m = m) := by
    intro l
    induction l with
    | nil => simp
    | cons x l ih =>
      intro m
      obtain ⟨h1, h2, h3⟩ := ih (max m x)
      simp only [List.foldl_cons, List.mem_cons]
      refine ⟨by omega, ?_, ?_⟩
      · rintro i (rfl | h)
        · omega
        · exact h2 i h
      · rcases h3 with h3 | h3
        · exact .inl (.inr h3)
        · rw [h3]; omega
  obtain ⟨_, h2, h3⟩ := key a 0
  refine ⟨_, alphabetUpperBound_bag hasz ha hlen, h2, ?_, ?_⟩
  · intro hne
    rcases h3 with h3 | h3
    · exact h3
    · obtain ⟨x, hx⟩ := List.exists_mem_of_ne_nil a hne
      have := h2 x hx
      rw [h3] at this ⊢
      have : x = 0 := by omega
      exact this ▸ hx
  · rintro rfl; rfl

/-- **C04**: `count_matches` of a symbol ends and gives its multiplicity. -/
theorem count_matches_exact (a : List Nat) (i : Nat) (ha : Within 168 a) (hi : i < 168)
    (fuel : Nat) (hf : a.count i < fuel) :
    countMatches fuel (bagValue a) (symPrime i) = some (.ok (a.count i)) := by
  induction fuel generalizing a with
  | zero => omega
  | succ fuel ih =>
    by_cases h : i ∈ a
    · have hc : (a.erase i).count i = a.count i - 1 := List.count_erase_self
      have hpos := List.count_pos_iff.mpr h
      have := ih (a.erase i) (fun j hj => ha j (List.mem_of_mem_erase hj)) (by omega)
      simp only [countMatches, anaDelete_mem h ha, this, hc]
      congr 2; omega
    · simp only [countMatches, anaDelete_not_mem hi h ha, List.count_eq_zero_of_not_mem h]

/-- **C04**: `count_matches` of the empty value never returns, whatever the bag. -/
theorem count_matches_empty_diverges (v : Nat) (hv : v ≠ 0) (fuel : Nat) :
    countMatches fuel v anaEmpty = none := by
  induction fuel with
  | zero => rfl
  | succ fuel ih =>
    have : anaDelete v anaEmpty = .ok (some v) := by
      simp [anaDelete, anaContains, anaEmpty, Nat.mod_one, hv]
    simp only [countMatches, this, ih]

example : charCount (bagValue [4, 0, 4]) 5 = .ok 3 ∧
    countMatches 3 (bagValue [4, 0, 4]) (symPrime 4) = some (.ok 2) :=
  ⟨char_count_exact _ _ (by decide) (by decide) (by decide),
   count_matches_exact _ _ (by decide) (by decide) _ (by decide)⟩

example : ∃ m, alphabetUpperBound (bagValue [4, 0, 4]) 5 = .ok (m, 3) ∧ m ∈ [4, 0, 4] := by
  obtain ⟨m, h, _, h2, _⟩ := alphabet_upper_bound_exact [4, 0, 4] 5 (by decide)
    (by decide) (by decide)
  exact ⟨m, h, h2 (by decide)⟩

/-! ## C05: iteration -/

/-- The depth-first single-beam iterator lists the symbols in descending order. -/
theorem iterChain_spec (l : List Nat) (d : Nat) :
    (iterChain l d).map (fun x => x.1.charindex) = l ∧
    ∀ (i : Nat) (x : IterItem), (iterChain l d)[i]? = some x →
      x.2 = d + i + 1 ∧ x.1.value = bagValue (l.drop (i + 1)) := by
  induction l generalizing d with
  | nil => simp [iterChain]
  | cons a l ih =>
    obtain ⟨h1, h2⟩ := ih (d + 1)
    refine ⟨by simp [iterChain, h1], ?_⟩
    intro i x hx
    cases i with
    | zero => simp [iterChain] at hx; subst hx; simp
    | succ i =>
      simp only [iterChain, List.getElem?_cons_succ] at hx
      obtain ⟨h3, h4⟩ := h2 i x hx
      refine ⟨by omega, by simpa using h4⟩

/-- **C05**: `iter` ends, and yields the symbols of the bag in descending order, with the value of
what remains after each deletion and with depths 1, 2, 3, … -/
theorem iter_exact (a : List Nat) (asz : Nat) (hasz : asz ≤ 168) (ha : Within asz a) :
    ∃ items, (∀ fuel, a.length + 2 ≤ fuel →
        iterCollect (iterCfg asz) fuel (iterInit (bagValue a)) = some (.ok items)) ∧
      iterAll (bagValue a) asz = .ok items ∧
      (items.map fun x => x.1.charindex).Perm a ∧
      (items.map fun x => x.1.charindex).Pairwise (· ≥ ·) ∧
      ∀ (i : Nat) (x : IterItem), items[i]? = some x → x.2 = i + 1 ∧
        x.1.value = bagValue ((items.map fun x => x.1.charindex).drop (i + 1)) := by
  obtain ⟨h1, h2⟩ := iterChain_spec (sortDesc a) 0
  refine ⟨iterChain (sortDesc a) 0, ?_, iterAll_bag hasz ha, ?_, ?_, ?_⟩
  · intro fuel hf
    rw [← bagValue_perm (sortDesc_perm a)]
    have := iterCollect_chain hasz (sortDesc a) (sortDesc_sorted a)
      (within_perm (sortDesc_perm a) ha) 0 0 fuel []
      (by rw [(sortDesc_perm a).length_eq]; exact hf)
    simpa [iterInit] using this
  · rw [h1]; exact sortDesc_perm a
  · rw [h1]; exact sortDesc_sorted a
  · rw [h1]
    intro i x hx
    obtain ⟨h3, h4⟩ := h2 i x hx
    exact ⟨by omega, h4⟩

example : ∃ items, iterAll (bagValue [1, 3, 1]) 4 = .ok items ∧
    (items.map fun x => x.1.charindex).Perm [1, 3, 1] := by
  obtain ⟨items, _, h, hp, _⟩ := iter_exact [1, 3, 1] 4 (by decide) (by decide)
  exact ⟨items, h, hp⟩

/-! ## C06: parents -/

/-- **C06**: `iter_parents` yields exactly the single deletions, each symbol once, in descending
order. -/
theorem parents_exact (a : List Nat) (asz : Nat) (hasz : asz ≤ 168) (ha : Within asz a) :
    ∃ parents, delCollect (bagValue a) asz = .ok parents ∧
      (∀ r, r ∈ parents ↔ r.charindex ∈ a ∧ r.value = bagValue (a.erase r.charindex)) ∧
      (parents.map fun r => r.charindex).Pairwise (· > ·) := by
  refine ⟨_, delCollect_eq (Within.mono ha hasz) asz hasz, ?_, ?_⟩
  · rintro ⟨v, i⟩
    simp only [List.mem_map, mem_descSyms]
    constructor
    · rintro ⟨j, ⟨_, hj⟩, h⟩
      cases h; exact ⟨hj, rfl⟩
    · rintro ⟨hi, rfl⟩
      exact ⟨i, ⟨ha i hi, hi⟩, rfl⟩
  · rw [List.map_map]
    have : ((fun r => r.charindex) ∘ fun i => (⟨bagValue (a.erase i), i⟩ : DeletionResult)) = id :=
      rfl
    rw [this, List.map_id]
    exact descSyms_sorted a asz

/-- **C06**: the empty value has no parents. -/
theorem parents_empty (asz : Nat) : delCollect anaEmpty asz = .ok [] := by
  cases asz <;> simp [delCollect, anaEmpty]

example : ∃ parents, delCollect (bagValue [2, 0, 2]) 3 = .ok parents ∧
    (⟨bagValue [0, 2], 2⟩ : DeletionResult) ∈ parents := by
  obtain ⟨p, h, hm, _⟩ := parents_exact [2, 0, 2] 3 (by decide) (by decide)
  exact ⟨p, h, (hm _).mpr (by decide)⟩

/-! ## C07: breadth-first deletion search -/

/-- The search that variant lookup uses: breadth first, no duplicates, no empty leaves, at most `k`
deletions. -/
def bfsParams (k : Nat) : SearchParams :=
  { minDistance := none, maxDistance := some k, breadthfirst := true, allowDuplicates := false,
    allowEmptyLeaves := false }

/-- **C07**: the search ends (with any sufficient number of passes the result is the same) and
yields exactly the values of the non-empty bags that arise from deleting 1 to `k` symbols, each
exactly once, with the number of deletions, in non-decreasing order of that number. -/
theorem bfs_exact (a : List Nat) (asz k : Nat) (hasz : asz ≤ 168) (ha : Within asz a) :
    ∃ items : List IterItem,
      (∀ fuel, iterFuel asz (bagValue a) ≤ fuel →
        iterCollect (recursiveCfg asz (bfsParams k)) fuel (iterInit (bagValue a)) =
          some (.ok items)) ∧
      (∀ v d, (∃ c, ((⟨v, c⟩ : DeletionResult), d) ∈ items) ↔
        ∃ b r : List Nat, (b ++ r).Perm a ∧ b ≠ [] ∧ v = bagValue b ∧ d = r.length ∧
          1 ≤ d ∧ d ≤ k) ∧
      (items.map fun x => x.1.value).Nodup ∧
      items.Pairwise (fun x y => x.2 ≤ y.2) := by
  have hc : BfsCfg (recursiveCfg asz (bfsParams k)) := ⟨rfl, rfl, rfl, rfl, hasz⟩
  obtain ⟨out, h1, h2⟩ := bfs_all hc ha (iterFuel asz (bagValue a)) le_rfl
  have hw : Within 168 a := Within.mono ha hasz
  refine ⟨out, ?_, ?_, h2.nodup, h2.sorted⟩
  · intro fuel hf
    exact iterCollect_mono h1 hf
  · intro v d
    constructor
    · rintro ⟨c, hc⟩
      obtain ⟨C, hC, hl, hv, hd, hd1, hne⟩ := h2.sound _ hc
      obtain ⟨r, hr⟩ := subperm_exists_append hC
      have := hr.length_eq
      simp only [List.length_append] at this
      simp only at hl hv hd hd1
      exact ⟨C, r, hr, hne, hv, by omega, hd1, hd k rfl⟩
    · rintro ⟨b, r, hp, hne, rfl, rfl, hd1, hdk⟩
      have hsub : b.Subperm a :=
        List.Subperm.trans (List.sublist_append_left b r).subperm hp.subperm
      have hl := hp.length_eq
      simp only [List.length_append] at hl
      rcases h2.complete b hsub hne (by omega) (by
        intro m hm
        simp only [recursiveCfg, bfsParams, Option.some.injEq] at hm
        omega) with h | ⟨⟨⟨v, c⟩, d⟩, hx, he⟩
      · cases h
      · simp only at he
        subst he
        obtain ⟨C, hC, hCl, hv, _⟩ := h2.sound _ hx
        have := ((bagValue_inj (within_of_subperm hsub hw) (within_of_subperm hC hw)).mp hv).length_eq
        simp only at hCl
        have : d = r.length := by omega
        exact ⟨c, this ▸ hx⟩

example : ∃ items : List IterItem,
    iterCollect (recursiveCfg 3 (bfsParams 2)) (iterFuel 3 (bagValue [2, 0, 2]))
      (iterInit (bagValue [2, 0, 2])) = some (.ok items) ∧
    (∃ c, ((⟨bagValue [2], c⟩ : DeletionResult), 2) ∈ items) := by
  obtain ⟨items, h, hm, _⟩ := bfs_exact [2, 0, 2] 3 2 (by decide) (by decide)
  exact ⟨items, h _ le_rfl,
    (hm _ _).mpr ⟨[2], [0, 2], by decide, by decide, rfl, rfl, by decide, by decide⟩⟩

/-! ## C08: capacity and panics -/

/-- **C08**: with at most 167 lines and no empty string hashing and normalising never panic. -/
theorem hashing_total (alphabet : Alphabet) (hne : NoEmpty alphabet)
    (hlen : alphabet.length ≤ 167) (text : List Char) :
    (∃ v, anahash alphabet text = .ok v ∧ v ≠ 0) ∧
    ∃ codes, normalizeToAlphabet alphabet text = .ok codes ∧
      ∀ c ∈ codes, c < alphabet.length ∨ c = alphabet.length + 1 := by
  obtain ⟨c1, h1⟩ := encodes_exists hne alphabet.length text
  obtain ⟨c2, h2⟩ := encodes_exists hne (alphabet.length + 1) text
  refine ⟨⟨_, anahash_eq hlen h1, ?_⟩, c2, normalize_eq (by omega) h2, encodes_codes h2⟩
  have := bagValue_pos (Within.mono (encodes_within h1) (by omega : alphabet.length + 1 ≤ 168))
  omega

example : ∃ v, anahash exAlphabet ['x', '€'] = .ok v ∧ v ≠ 0 :=
  (hashing_total exAlphabet (by decide) (by decide) _).1

/-- **C08**: an empty string that is reached makes hashing and normalising panic. -/
theorem hashing_empty_string_panics (alphabet : Alphabet) (c : Char) (text : List Char) (i : Nat)
    (h : FirstMatch alphabet (c :: text) i []) :
    (∃ e, anahash alphabet (c :: text) = .error e) ∧
    normalizeToAlphabet alphabet (c :: text) = .error .overflow := by
  have hm := matchAlphabet_hit h 0
  simp only [Nat.zero_add, List.length_nil] at hm
  constructor
  · simp only [anahash, anahashLoop, hm]
    cases character (i % 256) <;> simp
  · simp [normalizeToAlphabet, normalizeLoop, hm]

example : FirstMatch [[['a'], []]] ['b'] 0 [] :=
  ⟨⟨[['a']], [], rfl, by decide⟩, by simp, by simp⟩

/-- **C08**: with 168 to 255 lines every text that contains, at a point where a symbol starts, an
unknown character makes hashing panic; stated for texts that begin with one. -/
theorem hashing_unknown_panics (alphabet : Alphabet) (c : Char) (text : List Char)
    (hlen : 168 ≤ alphabet.length) (hlen' : alphabet.length < 256)
    (h : ∀ entry ∈ alphabet, ∀ x ∈ entry, ¬ x <+: c :: text) :
    anahash alphabet (c :: text) = .error .index := by
  have hm := (matchAlphabet_none (k := 0)).mpr h
  simp only [anahash, anahashLoop, Nat.lt_irrefl, if_false, hm]
  rw [Nat.mod_eq_of_lt hlen', character_panic hlen]

/-- **C08**: a text whose first symbol is on line 169 to 256 makes hashing panic too. -/
theorem hashing_late_line_panics (alphabet : Alphabet) (c : Char) (text e : List Char) (i : Nat)
    (h : FirstMatch alphabet (c :: text) i e) (hi : 168 ≤ i) (hi' : i < 256) :
    anahash alphabet (c :: text) = .error .index := by
  have hm := matchAlphabet_hit h 0
  simp only [Nat.zero_add] at hm
  simp only [anahash, anahashLoop, Nat.lt_irrefl, if_false, hm]
  rw [Nat.mod_eq_of_lt hi', character_panic hi]

/-- **C08**: with 256 lines there is no panic, but unknown characters get the value of the first
line: texts that are no anagrams collide. -/
theorem hashing_wraps_at_256 (alphabet : Alphabet) (c d : Char) (hlen : alphabet.length = 256)
    (h : ∀ entry ∈ alphabet, ∀ x ∈ entry, ¬ x <+: [c]) (hd : FirstMatch alphabet [d] 0 [d]) :
    anahash alphabet [c] = anahash alphabet [d] := by
  have hm := (matchAlphabet_none (k := 0)).mpr h
  have hm' := matchAlphabet_hit hd 0
  simp only [anahash, anahashLoop, Nat.lt_irrefl, if_false, hm, hm', hlen]
  rfl

example : anahash (List.replicate 200 [['a']]) ['b'] = .error .index :=
  hashing_unknown_panics _ 'b' [] (by rw [List.length_replicate]; decide)
    (by rw [List.length_replicate]; decide) (by
      intro entry he x hx
      rw [List.eq_of_mem_replicate he] at hx
      simp only [List.mem_singleton] at hx
      subst hx; decide)

example : anahash (List.replicate 256 [['a']]) ['b'] = anahash (List.replicate 256 [['a']]) ['a'] :=
  hashing_wraps_at_256 _ 'b' 'a' (List.length_replicate ..) (by
      intro entry he x hx
      rw [List.eq_of_mem_replicate he] at hx
      simp only [List.mem_singleton] at hx
      subst hx; decide)
    ⟨⟨[], [], rfl, fun x hx => by cases hx⟩, by decide, fun j hj => by cases hj⟩

end Verif.Props
