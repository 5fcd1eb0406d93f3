import Verif.Spec.Rules
import Verif.Lemmas.Vocab
import Mathlib.Data.List.TakeWhile

/-!
# Patterns and context rules
-/
namespace Verif.Lemmas

open Verif.Spec Verif.Model

/-! ## Patterns -/

theorem lexicon_bit (lexs k : Nat) :
    (lexs &&& (1 <<< k) == 1 <<< k) = lexs.testBit k := by
  rw [Nat.one_shiftLeft, Bool.eq_iff_iff, beq_iff_eq]
  constructor
  · intro h
    have := congrArg (fun n => n.testBit k) h
    simpa [Nat.testBit_and, Nat.testBit_two_pow_self] using this
  · intro h
    refine Nat.eq_of_testBit_eq fun j => ?_
    rw [Nat.testBit_and, Nat.testBit_two_pow]
    by_cases hj : k = j
    · subst hj; simp [h]
    · simp [hj]

theorem no_bits (n : Nat) : n = 0 ↔ ∀ k, n.testBit k = false := by
  constructor
  · rintro rfl k; exact Nat.zero_testBit k
  · intro h
    exact Nat.eq_of_testBit_eq fun j => by rw [h j, Nat.zero_testBit]

mutual
theorem fits_ok (sequence : List (Nat × Nat)) (i : Nat) : ∀ p : PatternMatch, Small p →
    ∃ b, p.fits sequence i = .ok b ∧ (b = true ↔ Holds sequence i p)
  | .any, _ => ⟨true, by rw [PatternMatch.fits], by simp [Holds]⟩
  | .noLexicon, _ => by
    rw [PatternMatch.fits, Holds]
    cases h : sequence[i]? with
    | none => exact ⟨false, rfl, by simp⟩
    | some w =>
      refine ⟨_, rfl, ?_⟩
      simp only [Bool.or_eq_true, beq_iff_eq, Option.some.injEq, exists_eq_left']
      rw [no_bits, or_comm]
  | .vocab id, _ => by
    rw [PatternMatch.fits, Holds]
    cases h : sequence[i]? with
    | none => exact ⟨false, rfl, by simp⟩
    | some w =>
      refine ⟨_, rfl, ?_⟩
      simp only [beq_iff_eq, Option.some.injEq, exists_eq_left']
      exact eq_comm
  | .fromLexicon k, hk => by
    rw [PatternMatch.fits, Holds]
    rw [Small] at hk
    cases h : sequence[i]? with
    | none => exact ⟨false, rfl, by simp⟩
    | some w =>
      simp only [ge_iff_le, Nat.not_le.mpr hk, if_false]
      exact ⟨_, rfl, by rw [lexicon_bit]; simp⟩
  | .not p, hp => by
    rw [Small] at hp
    obtain ⟨b, h1, h2⟩ := fits_ok sequence i p hp
    rw [PatternMatch.fits, Holds, h1]
    refine ⟨!b, rfl, ?_⟩
    rw [← h2]
    cases b <;> simp
  | .disjunction ps, hp => by
    rw [Small] at hp
    rw [PatternMatch.fits, Holds]
    exact fitsAny_ok sequence i ps hp

theorem fitsAny_ok (sequence : List (Nat × Nat)) (i : Nat) : ∀ ps : List PatternMatch, SmallAll ps →
    ∃ b, PatternMatch.fitsAny sequence i ps = .ok b ∧ (b = true ↔ HoldsAny sequence i ps)
  | [], _ => ⟨false, by rw [PatternMatch.fitsAny], by simp [HoldsAny]⟩
  | p :: ps, hp => by
    rw [SmallAll] at hp
    obtain ⟨b, h1, h2⟩ := fits_ok sequence i p hp.1
    obtain ⟨c, h3, h4⟩ := fitsAny_ok sequence i ps hp.2
    rw [PatternMatch.fitsAny, HoldsAny, h1]
    cases b with
    | true => exact ⟨true, rfl, by simp [h2.mp rfl]⟩
    | false =>
      refine ⟨c, h3, ?_⟩
      have : ¬ Holds sequence i p := fun h => by simpa using h2.mpr h
      rw [h4]
      simp [this]
end

theorem holdsAny_iff (sequence : List (Nat × Nat)) (i : Nat) (ps : List PatternMatch) :
    HoldsAny sequence i ps ↔ ∃ p ∈ ps, Holds sequence i p := by
  induction ps with
  | nil => simp [HoldsAny]
  | cons p ps ih => rw [HoldsAny, ih]; simp

theorem smallAll_iff (ps : List PatternMatch) : SmallAll ps ↔ ∀ p ∈ ps, Small p := by
  induction ps with
  | nil => simp [SmallAll]
  | cons p ps ih => rw [SmallAll, ih]; simp

/-! ## Parsing -/

theorem dropWhile_blank {isSpace : Char → Bool} {a s : List Char} (h : Blank isSpace a) :
    (a ++ s).dropWhile isSpace = s.dropWhile isSpace := by
  induction a with
  | nil => rfl
  | cons c a ih =>
    have : isSpace c = true := h c (by simp)
    rw [List.cons_append, List.dropWhile_cons, if_pos this]
    exact ih fun d hd => h d (by simp [hd])

theorem dropWhile_trimmed {isSpace : Char → Bool} {s : List Char}
    (h : ∀ c, s.head? = some c → isSpace c = false) : s.dropWhile isSpace = s := by
  cases s with
  | nil => rfl
  | cons c s => rw [List.dropWhile_cons, if_neg (by simp [h c rfl])]

theorem trim_pad {isSpace : Char → Bool} {a s b : List Char} (ha : Blank isSpace a)
    (hb : Blank isSpace b) (hs : Trimmed isSpace s) (hne : s ≠ []) :
    trim isSpace (a ++ s ++ b) = s := by
  unfold trim
  rw [List.append_assoc, dropWhile_blank ha]
  have h1 : (s ++ b).dropWhile isSpace = s ++ b := by
    refine dropWhile_trimmed fun c hc => hs.1 c ?_
    cases s with
    | nil => exact absurd rfl hne
    | cons d s => simpa using hc
  have hb' : Blank isSpace b.reverse := fun c hc => hb c (List.mem_reverse.mp hc)
  rw [h1, List.reverse_append, dropWhile_blank hb',
    dropWhile_trimmed (by intro c hc; exact hs.2 c (by rwa [List.head?_reverse] at hc)),
    List.reverse_reverse]

theorem splitChar_none {sep : Char} {s : List Char} (h : sep ∉ s) : splitChar sep s = [s] := by
  induction s with
  | nil => rfl
  | cons c s ih =>
    simp only [List.mem_cons, not_or] at h
    rw [splitChar, if_neg (fun e => h.1 e.symm), ih h.2]

theorem splitChar_sep {sep : Char} {s t : List Char} (h : sep ∉ s) :
    splitChar sep (s ++ sep :: t) = s :: splitChar sep t := by
  induction s with
  | nil => rw [List.nil_append, splitChar, if_pos rfl]
  | cons c s ih =>
    simp only [List.mem_cons, not_or] at h
    rw [List.cons_append, splitChar, if_neg (fun e => h.1 e.symm), ih h.2]

theorem findLexicon_some {lexicons : List (List Char)} {name : List Char} {k : Nat} (i : Nat)
    (h : IsLexicon lexicons name k) : findLexicon name i lexicons = some ((i + k) % 256) := by
  induction lexicons generalizing i k with
  | nil => obtain ⟨⟨l, h1, _⟩, _⟩ := h; simp at h1
  | cons l ls ih =>
    obtain ⟨⟨l', h1, h2⟩, h3⟩ := h
    rw [findLexicon]
    cases k with
    | zero =>
      simp only [List.getElem?_cons_zero, Option.some.injEq] at h1
      subst h1
      rw [if_pos]
      · rfl
      · rcases h2 with h2 | h2
        · exact .inl h2.symm
        · exact .inr (List.isSuffixOf_iff_suffix.mpr h2)
    | succ k =>
      have := h3 0 (by omega) l rfl
      rw [if_neg]
      · rw [ih (k := k) (i + 1) ⟨⟨l', by simpa using h1, h2⟩, fun j hj m hm => h3 (j + 1) (by omega) m (by simpa using hm)⟩]
        congr 2; omega
      · rintro (h | h)
        · exact this.1 h.symm
        · exact this.2 (List.isSuffixOf_iff_suffix.mp h)

/-- The text parses to a pattern with the meaning `M`. -/
def ParsesTo (isSpace : Char → Bool) (lexicons : List (List Char)) (encoder : HMap (List Char) Nat)
    (s : List Char) (M : Nat → Nat → Prop) : Prop :=
  ∃ p, (∀ fuel, s.length < fuel → PatternMatch.parseAux isSpace lexicons encoder fuel s = some p) ∧
    Small p ∧ ∀ sequence i w, sequence[i]? = some w → (Holds sequence i p ↔ M w.1 w.2)

theorem writesTerm_ne {isSpace : Char → Bool} {t : Term} {s : List Char}
    (h : WritesTerm isSpace t s) : s ≠ [] := by
  cases h with
  | anything => simp
  | unknown => simp
  | lexicon => simp
  | word _ _ hw => simp [hw.1]
  | not => simp

theorem writesTerm_head {isSpace : Char → Bool} (hm : MarksOk isSpace) {t : Term} {s : List Char}
    (h : WritesTerm isSpace t s) : s.head? ≠ some '(' := by
  have hp : isSpace '(' = false := hm _ (by simp)
  have blank : ∀ (a r : List Char), Blank isSpace a → r.head? ≠ some '(' → r ≠ [] →
      (a ++ r).head? ≠ some '(' := by
    intro a r ha hr _ e
    cases a with
    | nil => exact hr e
    | cons c a =>
      simp only [List.cons_append, List.head?_cons, Option.some.injEq] at e
      have := ha c (by simp)
      rw [e, hp] at this
      cases this
  cases h with
  | anything ha => rw [List.append_assoc]; exact blank _ _ ha (by simp) (by simp)
  | unknown ha => rw [List.append_assoc]; exact blank _ _ ha (by simp) (by simp)
  | lexicon ha => rw [List.append_assoc]; exact blank _ _ ha (by simp) (by simp)
  | @word a b w ha _ hw =>
    rw [List.append_assoc]
    refine blank _ _ ha ?_ (by simp [hw.1])
    have := hw.2.2.2.2.2.2.2
    have := hw.1
    cases w with
    | nil => exact absurd rfl this
    | cons c w => simpa using ‹(c :: w).head? ≠ some '('›
  | not ha => exact blank _ _ ha (by simp) (by simp)

theorem writesTerm_noBar {isSpace : Char → Bool} (hm : MarksOk isSpace) {t : Term} {s : List Char}
    (h : WritesTerm isSpace t s) : '|' ∉ s := by
  have blank : ∀ a, Blank isSpace a → '|' ∉ a := by
    intro a ha hc
    have := ha _ hc
    rw [hm '|' (by simp)] at this
    cases this
  induction h with
  | anything ha hb => simp [blank _ ha, blank _ hb]
  | unknown ha hb => simp [blank _ ha, blank _ hb]
  | lexicon ha hb hn => simp [blank _ ha, blank _ hb, hn]
  | word ha hb hw => simp [blank _ ha, blank _ hb, hw.2.2.1]
  | not ha _ ih => simp [blank _ ha, ih]

/-- Removing blanks at the start. -/
theorem writesTerm_left {isSpace : Char → Bool} (hm : MarksOk isSpace) {t : Term} {s : List Char}
    (h : WritesTerm isSpace t s) : WritesTerm isSpace t (s.dropWhile isSpace) ∧
      ∃ c r, s.dropWhile isSpace = c :: r ∧ isSpace c = false := by
  have nil : Blank isSpace [] := by intro c hc; cases hc
  cases h with
  | @anything a b ha hb =>
    have e : (a ++ ['?'] ++ b).dropWhile isSpace = '?' :: b := by
      rw [List.append_assoc, dropWhile_blank ha, dropWhile_trimmed]
      · rfl
      · intro c hc; cases hc; exact hm _ (by simp)
    rw [e]
    exact ⟨.anything nil hb, _, _, rfl, hm _ (by simp)⟩
  | @unknown a b ha hb =>
    have e : (a ++ ['^'] ++ b).dropWhile isSpace = '^' :: b := by
      rw [List.append_assoc, dropWhile_blank ha, dropWhile_trimmed]
      · rfl
      · intro c hc; cases hc; exact hm _ (by simp)
    rw [e]
    exact ⟨.unknown nil hb, _, _, rfl, hm _ (by simp)⟩
  | @lexicon a b name ha hb h1 h2 h3 =>
    have e : (a ++ '@' :: name ++ b).dropWhile isSpace = '@' :: name ++ b := by
      rw [List.append_assoc, dropWhile_blank ha, dropWhile_trimmed]
      intro c hc; cases hc; exact hm _ (by simp)
    rw [e]
    exact ⟨.lexicon nil hb h1 h2 h3, _, _, rfl, hm _ (by simp)⟩
  | @word a b w ha hb hw =>
    have hh : ∃ c r, w = c :: r := List.exists_cons_of_ne_nil hw.1
    obtain ⟨c, r, rfl⟩ := hh
    have e : (a ++ (c :: r) ++ b).dropWhile isSpace = (c :: r) ++ b := by
      rw [List.append_assoc, dropWhile_blank ha, dropWhile_trimmed]
      intro d hd; cases hd; exact hw.2.1.1 c rfl
    rw [e]
    exact ⟨.word nil hb hw, _, _, rfl, hw.2.1.1 c rfl⟩
  | @not a t s ha hs =>
    have e : (a ++ '!' :: s).dropWhile isSpace = '!' :: s := by
      rw [dropWhile_blank ha, dropWhile_trimmed]
      intro c hc; cases hc; exact hm _ (by simp)
    rw [e]
    exact ⟨.not nil hs, _, _, rfl, hm _ (by simp)⟩

/-- `trim_end` -/
def trimEnd (isSpace : Char → Bool) (s : List Char) : List Char :=
  (s.reverse.dropWhile isSpace).reverse

theorem trim_eq (isSpace : Char → Bool) (s : List Char) :
    trim isSpace s = trimEnd isSpace (s.dropWhile isSpace) := rfl

theorem trimEnd_pad {isSpace : Char → Bool} {s b : List Char} (hb : Blank isSpace b)
    (hs : ∀ c, s.getLast? = some c → isSpace c = false) : trimEnd isSpace (s ++ b) = s := by
  have hb' : Blank isSpace b.reverse := fun c hc => hb c (List.mem_reverse.mp hc)
  unfold trimEnd
  rw [List.reverse_append, dropWhile_blank hb',
    dropWhile_trimmed (by intro c hc; exact hs c (by rwa [List.head?_reverse] at hc)),
    List.reverse_reverse]

theorem trimEnd_append {isSpace : Char → Bool} {a s : List Char}
    (hs : trimEnd isSpace s ≠ []) : trimEnd isSpace (a ++ s) = a ++ trimEnd isSpace s := by
  unfold trimEnd at hs ⊢
  have : s.reverse.dropWhile isSpace ≠ [] := by simpa using hs
  rw [List.reverse_append, List.dropWhile_append, if_neg (by simpa using this), List.reverse_append,
    List.reverse_reverse]

theorem trimEnd_cons (isSpace : Char → Bool) (c : Char) (s : List Char) :
    trimEnd isSpace (c :: s) =
      if trimEnd isSpace s = [] then (if isSpace c then [] else [c]) else c :: trimEnd isSpace s := by
  by_cases h : trimEnd isSpace s = []
  · rw [if_pos h]
    unfold trimEnd at h ⊢
    rw [List.reverse_eq_nil_iff] at h
    rw [List.reverse_cons, List.dropWhile_append, h]
    simp only [List.isEmpty_nil, if_true, List.dropWhile_cons, List.dropWhile_nil]
    split <;> simp_all
  · rw [if_neg h]
    exact trimEnd_append (a := [c]) h

theorem trimEnd_trimEnd (isSpace : Char → Bool) (s : List Char) :
    trimEnd isSpace (trimEnd isSpace s) = trimEnd isSpace s := by
  induction s with
  | nil => rfl
  | cons c s ih =>
    rw [trimEnd_cons]
    by_cases h : trimEnd isSpace s = []
    · rw [if_pos h]
      by_cases hc : isSpace c = true
      · rw [if_pos hc]; rfl
      · rw [if_neg hc, trimEnd_cons, if_pos (by rfl), if_neg hc]
    · rw [if_neg h, trimEnd_cons, ih, if_neg h]

theorem dropWhile_trimEnd (isSpace : Char → Bool) (s : List Char) :
    (trimEnd isSpace s).dropWhile isSpace = trimEnd isSpace (s.dropWhile isSpace) := by
  induction s with
  | nil => rfl
  | cons c s ih =>
    rw [trimEnd_cons, List.dropWhile_cons]
    by_cases hc : isSpace c = true
    · rw [if_pos hc, if_pos hc, ← ih]
      split
      · next h => rw [h]
      · rw [List.dropWhile_cons, if_pos hc]
    · rw [if_neg hc, if_neg hc, trimEnd_cons, if_neg hc]
      split
      · rw [List.dropWhile_cons, if_neg hc]
      · rw [List.dropWhile_cons, if_neg hc]

theorem trim_trimEnd (isSpace : Char → Bool) (s : List Char) :
    trim isSpace (trimEnd isSpace s) = trim isSpace s := by
  rw [trim_eq, trim_eq, dropWhile_trimEnd, trimEnd_trimEnd]

theorem trim_left (isSpace : Char → Bool) (s : List Char) :
    trim isSpace (s.dropWhile isSpace) = trim isSpace s := by
  rw [trim_eq, trim_eq]
  congr 1
  induction s with
  | nil => rfl
  | cons c s ih =>
    rw [List.dropWhile_cons]
    split
    · exact ih
    · next h => rw [List.dropWhile_cons, if_neg h]

theorem parseAux_congr {isSpace : Char → Bool} {lexicons : List (List Char)}
    {encoder : HMap (List Char) Nat} {s s' : List Char} (h : trim isSpace s = trim isSpace s')
    (fuel : Nat) : PatternMatch.parseAux isSpace lexicons encoder (fuel + 1) s =
      PatternMatch.parseAux isSpace lexicons encoder (fuel + 1) s' := by
  rw [PatternMatch.parseAux, PatternMatch.parseAux, h]

theorem trimEnd_length (isSpace : Char → Bool) (s : List Char) :
    (trimEnd isSpace s).length ≤ s.length := by
  unfold trimEnd
  have := (List.dropWhile_suffix isSpace (l := s.reverse)).length_le
  simpa using this

/-- Removing blanks at the end. -/
theorem writesTerm_right {isSpace : Char → Bool} (hm : MarksOk isSpace) {t : Term} {s : List Char}
    (h : WritesTerm isSpace t s) : WritesTerm isSpace t (trimEnd isSpace s) ∧
      trimEnd isSpace s ≠ [] ∧
      ∀ c, (trimEnd isSpace s).getLast? = some c → isSpace c = false := by
  have nil : Blank isSpace [] := by intro c hc; cases hc
  have last : ∀ (s : List Char) c, (trimEnd isSpace s).getLast? = some c → isSpace c = false := by
    intro s c hc
    unfold trimEnd at hc
    rw [List.getLast?_reverse] at hc
    have := List.head?_dropWhile_not isSpace s.reverse
    rw [hc] at this
    simpa using this
  refine ⟨?_, ?_, last s⟩
  · induction h with
    | @anything a b ha hb =>
      rw [trimEnd_pad hb (by intro c hc; simp at hc; rw [← hc]; exact hm _ (by simp))]
      simpa using WritesTerm.anything ha nil
    | @unknown a b ha hb =>
      rw [trimEnd_pad hb (by intro c hc; simp at hc; rw [← hc]; exact hm _ (by simp))]
      simpa using WritesTerm.unknown ha nil
    | @lexicon a b name ha hb h1 h2 h3 =>
      rw [trimEnd_pad hb]
      · simpa using WritesTerm.lexicon ha nil h1 h2 h3
      · intro c hc
        refine h3 c ?_
        obtain ⟨d, r, rfl⟩ := List.exists_cons_of_ne_nil h2
        rw [List.getLast?_append, List.getLast?_cons_cons] at hc
        cases hl : (d :: r).getLast? with
        | none => simp at hl
        | some l => rw [hl] at hc; simpa using hc
    | @word a b w ha hb hw =>
      rw [trimEnd_pad hb]
      · simpa using WritesTerm.word ha nil hw
      · intro c hc
        refine hw.2.1.2 c ?_
        rw [List.getLast?_append] at hc
        cases hl : w.getLast? with
        | none => exact absurd (List.getLast?_eq_none_iff.mp hl) hw.1
        | some l => rw [hl] at hc; simpa using hc
    | @not a t s ha hs ih =>
      have : trimEnd isSpace s ≠ [] := writesTerm_ne ih
      have e : a ++ '!' :: s = (a ++ ['!']) ++ s := by simp
      rw [e, trimEnd_append this]
      simpa using WritesTerm.not ha ih
  · intro e
    unfold trimEnd at e
    rw [List.reverse_eq_nil_iff] at e
    have e := fun c hc => List.dropWhile_eq_nil_iff.mp e c hc
    obtain ⟨_, c, r, h1, h2⟩ := writesTerm_left hm h
    have hc : c ∈ s := (List.dropWhile_suffix isSpace).subset (by rw [h1]; simp)
    have := e c (List.mem_reverse.mpr hc)
    rw [h2] at this
    cases this

theorem term_parses {isSpace : Char → Bool} (hm : MarksOk isSpace) {lexicons : List (List Char)}
    {encoder : HMap (List Char) Nat} {t : Term} {s : List Char} (h : WritesTerm isSpace t s)
    (hk : Known lexicons encoder t) : ParsesTo isSpace lexicons encoder s
      (fun id lexs => TermFits lexicons encoder id lexs t) := by
  have one : ∀ c, isSpace c = false → Trimmed isSpace [c] := by
    intro c hc
    constructor <;> intro d hd <;> simp at hd <;> rw [← hd] <;> exact hc
  have bar := writesTerm_noBar hm h
  induction h with
  | @anything a b ha hb =>
    refine ⟨.any, ?_, by simp [Small], by intro sequence i w _; simp [Holds, TermFits]⟩
    rintro (_ | fuel) hf
    · omega
    · rw [PatternMatch.parseAux, trim_pad ha hb (one _ (hm _ (by simp))) (by simp)]
      simp
  | @unknown a b ha hb =>
    refine ⟨.noLexicon, ?_, by simp [Small], ?_⟩
    · rintro (_ | fuel) hf
      · omega
      · rw [PatternMatch.parseAux, trim_pad ha hb (one _ (hm _ (by simp))) (by simp)]
        simp
    · intro sequence i w hw
      simp [Holds, TermFits, hw]
  | @lexicon a b name ha hb h1 h2 h3 =>
    obtain ⟨k, hk1, hk2⟩ := hk
    refine ⟨.fromLexicon k, ?_, by simpa [Small] using hk1, ?_⟩
    · rintro (_ | fuel) hf
      · omega
      · rw [PatternMatch.parseAux, trim_pad ha hb (s := '@' :: name) ?_ (by simp)]
        · have hbar : ('@' :: name).contains '|' = false := by
            simpa using h1
          obtain ⟨d, r, rfl⟩ := List.exists_cons_of_ne_nil h2
          simp only [hbar]
          rw [if_neg (by simp), if_neg (by simp), if_neg (by simp), if_neg (by simp)]
          simp only [findLexicon_some 0 hk2, Nat.zero_add, Option.map_some,
            Nat.mod_eq_of_lt (show k < 256 by omega)]
        · constructor
          · intro c hc; cases hc; exact hm _ (by simp)
          · intro c hc
            refine h3 c ?_
            obtain ⟨d, r, rfl⟩ := List.exists_cons_of_ne_nil h2
            rwa [List.getLast?_cons_cons] at hc
    · intro sequence i w hw
      simp only [Holds, TermFits, hw, Option.some.injEq, exists_eq_left']
      constructor
      · intro h; exact ⟨k, hk2, h⟩
      · rintro ⟨k', hk', h⟩
        have e := findLexicon_some 0 hk2
        have : k' = k := by
          rcases Nat.lt_trichotomy k' k with c | c | c
          · exfalso
            obtain ⟨l, e1, e2⟩ := hk'.1
            have := hk2.2 k' c l e1
            exact e2.elim this.1 this.2
          · exact c
          · exfalso
            obtain ⟨l, e1, e2⟩ := hk2.1
            have := hk'.2 k c l e1
            exact e2.elim this.1 this.2
        rwa [this] at h
  | @word a b w ha hb hw =>
    obtain ⟨id, hid⟩ := hk
    obtain ⟨w1, w2, w3, w4, w5, w6, w7, w8⟩ := hw
    refine ⟨.vocab id, ?_, by simp [Small], ?_⟩
    · rintro (_ | fuel) hf
      · omega
      · rw [PatternMatch.parseAux, trim_pad ha hb w2 w1]
        have hbar : w.contains '|' = false := by simpa using w3
        have hpre : ['!', '('].isPrefixOf w = false := by
          cases w with
          | nil => exact absurd rfl w1
          | cons c w =>
            have : '!' ≠ c := by rintro rfl; exact w6 rfl
            simp [List.isPrefixOf, this]
        simp only [hbar, hpre]
        rw [if_neg w4, if_neg w5, if_neg (by simp), if_neg (by simp)]
        split
        · exact absurd rfl w6
        · exact absurd rfl w7
        · rw [hid]; rfl
    · intro sequence i y hy
      simp only [Holds, TermFits, hy, Option.some.injEq, exists_eq_left', hid]
      exact eq_comm
  | @not a t s ha hs ih =>
    have hsbar : '|' ∉ s := writesTerm_noBar hm hs
    obtain ⟨r1, r2, r3⟩ := writesTerm_right hm hs
    have hh := writesTerm_head hm r1
    -- the trimmed text is `!` and the end-trimmed text of the inner part
    have htrim : trim isSpace (a ++ '!' :: s) = '!' :: trimEnd isSpace s := by
      have e1 : (a ++ '!' :: s).dropWhile isSpace = '!' :: s := by
        rw [dropWhile_blank ha, dropWhile_trimmed]
        intro c hc; cases hc; exact hm _ (by simp)
      rw [trim_eq, e1]
      have e2 : '!' :: s = ['!'] ++ s := rfl
      rw [e2, trimEnd_append r2]
      rfl
    obtain ⟨p, h1, h2, h3⟩ := ih hk hsbar
    refine ⟨.not p, ?_, by rw [Small]; exact h2, ?_⟩
    · rintro (_ | fuel) hf
      · omega
      · rw [PatternMatch.parseAux, htrim]
        have hlen : s.length < fuel := by simp at hf; omega
        obtain ⟨fuel, rfl⟩ : ∃ f, fuel = f + 1 := ⟨fuel - 1, by omega⟩
        have hp := h1 _ hlen
        rw [parseAux_congr (trim_trimEnd isSpace s).symm] at hp
        obtain ⟨c, r, hcr⟩ := List.exists_cons_of_ne_nil r2
        have hbar : ('!' :: trimEnd isSpace s).contains '|' = false := by
          simpa using writesTerm_noBar hm r1
        have hpre : ['!', '('].isPrefixOf ('!' :: trimEnd isSpace s) = false := by
          rw [hcr] at hh ⊢
          have : '(' ≠ c := by rintro rfl; exact hh rfl
          simp [List.isPrefixOf, this]
        simp only [hbar, hpre]
        rw [if_neg (by simp), if_neg (by simp), if_neg (by simp), if_neg (by simp)]
        simp only [hp, Option.map_some]
    · intro sequence i w hw
      simp only [TermFits]
      rw [Holds, h3 sequence i w hw]

/-- The parts of a pattern. -/
theorem parts_split {isSpace : Char → Bool} (hm : MarksOk isSpace) {t : Term} {ts : List Term}
    {s : List Char} (h : WritesParts isSpace t ts s) :
    List.Forall₂ (WritesTerm isSpace) (t :: ts) (splitChar '|' s) := by
  induction h with
  | one h => rw [splitChar_none (writesTerm_noBar hm h)]; exact .cons h .nil
  | more h _ ih => rw [splitChar_sep (writesTerm_noBar hm h)]; exact .cons h ih

theorem parts_left {isSpace : Char → Bool} (hm : MarksOk isSpace) {t : Term} {ts : List Term}
    {s : List Char} (h : WritesParts isSpace t ts s) :
    WritesParts isSpace t ts (s.dropWhile isSpace) := by
  cases h with
  | one h => exact .one (writesTerm_left hm h).1
  | @more t t' ts s s' h h' =>
    obtain ⟨a, c, r, h1, h2⟩ := writesTerm_left hm h
    rw [List.dropWhile_append, if_neg (by rw [h1]; simp)]
    exact .more a h'

theorem parts_right {isSpace : Char → Bool} (hm : MarksOk isSpace) {t : Term} {ts : List Term}
    {s : List Char} (h : WritesParts isSpace t ts s) :
    WritesParts isSpace t ts (trimEnd isSpace s) ∧ trimEnd isSpace s ≠ [] := by
  induction h with
  | one h => exact ⟨.one (writesTerm_right hm h).1, (writesTerm_right hm h).2.1⟩
  | @more t t' ts s s' h _ ih =>
    have e : s ++ '|' :: s' = (s ++ ['|']) ++ s' := by simp
    rw [e, trimEnd_append ih.2]
    refine ⟨?_, by simp⟩
    rw [List.append_assoc]
    exact .more h ih.1

theorem splitChar_length (sep : Char) (s : List Char) : ∀ w ∈ splitChar sep s, w.length ≤ s.length := by
  induction s with
  | nil => simp [splitChar]
  | cons c s ih =>
    intro w hw
    rw [splitChar] at hw
    split at hw
    · rcases List.mem_cons.mp hw with rfl | hw
      · simp
      · have := ih w hw
        simp only [List.length_cons]; omega
    · split at hw
      · simp only [List.mem_singleton] at hw; subst hw; simp
      · next w' ws heq =>
        rw [heq] at ih
        rcases List.mem_cons.mp hw with rfl | hw
        · have := ih w' (by simp)
          simp only [List.length_cons]; omega
        · have := ih w (by simp [hw])
          simp only [List.length_cons]; omega

theorem splitChar_lt {sep : Char} {s : List Char} (h : sep ∈ s) :
    ∀ w ∈ splitChar sep s, w.length < s.length := by
  induction s with
  | nil => cases h
  | cons c s ih =>
    intro w hw
    rw [splitChar] at hw
    split at hw
    · rcases List.mem_cons.mp hw with rfl | hw
      · simp
      · have := splitChar_length sep s w hw
        simp only [List.length_cons]; omega
    · next hc =>
      have hs : sep ∈ s := by
        rcases List.mem_cons.mp h with rfl | h
        · exact absurd rfl hc
        · exact h
      have ih := ih hs
      split at hw
      · next heq =>
        cases s with
        | nil => cases hs
        | cons d s =>
          rw [splitChar] at heq
          split at heq
          · cases heq
          · split at heq <;> cases heq
      · next w' ws heq =>
        rw [heq] at ih
        rcases List.mem_cons.mp hw with rfl | hw
        · have := ih w' (by simp)
          simp only [List.length_cons]; omega
        · have := ih w (by simp [hw])
          simp only [List.length_cons]; omega

theorem trim_length (isSpace : Char → Bool) (s : List Char) :
    (trim isSpace s).length ≤ s.length := by
  rw [trim_eq]
  have h1 := trimEnd_length isSpace (s.dropWhile isSpace)
  have h2 := (List.dropWhile_suffix isSpace (l := s)).length_le
  omega

theorem parts_head {isSpace : Char → Bool} (hm : MarksOk isSpace) {t : Term} {ts : List Term}
    {s : List Char} (h : WritesParts isSpace t ts s) :
    ['!', '('].isPrefixOf s = false := by
  have key : ∀ (t : Term) (s r : List Char), WritesTerm isSpace t s →
      ['!', '('].isPrefixOf (s ++ r) = false := by
    intro t s r hs
    have hb : ∀ (a x : List Char), Blank isSpace a → a ≠ [] → ['!', '('].isPrefixOf (a ++ x) = false := by
      intro a x ha hne
      obtain ⟨c, a, rfl⟩ := List.exists_cons_of_ne_nil hne
      have : '!' ≠ c := by
        rintro rfl
        have := ha '!' (by simp)
        rw [hm '!' (by simp)] at this
        cases this
      simp [List.isPrefixOf, this]
    cases hs with
    | @anything a b ha =>
      by_cases hne : a = []
      · subst hne; simp [List.isPrefixOf]
      · rw [List.append_assoc, List.append_assoc]; exact hb _ _ ha hne
    | @unknown a b ha =>
      by_cases hne : a = []
      · subst hne; simp [List.isPrefixOf]
      · rw [List.append_assoc, List.append_assoc]; exact hb _ _ ha hne
    | @lexicon a b name ha =>
      by_cases hne : a = []
      · subst hne; simp [List.isPrefixOf]
      · rw [List.append_assoc, List.append_assoc]; exact hb _ _ ha hne
    | @word a b w ha _ hw =>
      by_cases hne : a = []
      · subst hne
        obtain ⟨c, w', rfl⟩ := List.exists_cons_of_ne_nil hw.1
        have : '!' ≠ c := by rintro rfl; exact hw.2.2.2.2.2.1 rfl
        simp [List.isPrefixOf, this]
      · rw [List.append_assoc, List.append_assoc]; exact hb _ _ ha hne
    | @not a t s ha hs =>
      by_cases hne : a = []
      · subst hne
        obtain ⟨c, s', rfl⟩ := List.exists_cons_of_ne_nil (writesTerm_ne hs)
        have : '(' ≠ c := by rintro rfl; exact writesTerm_head hm hs rfl
        simp [List.isPrefixOf, this]
      · rw [List.append_assoc]; exact hb _ _ ha hne
  cases h with
  | one h => simpa using key _ _ [] h
  | more h => exact key _ _ _ h

theorem mapM_parts {isSpace : Char → Bool} (hm : MarksOk isSpace) {lexicons : List (List Char)}
    {encoder : HMap (List Char) Nat} {ts : List Term} {ss : List (List Char)}
    (h : List.Forall₂ (WritesTerm isSpace) ts ss) (hk : ∀ t ∈ ts, Known lexicons encoder t)
    (n : Nat) (hf : ∀ s ∈ ss, s.length < n) :
    ∃ ps, (∀ fuel, n ≤ fuel → ss.mapM (PatternMatch.parseAux isSpace lexicons encoder fuel) = some ps) ∧
      SmallAll ps ∧ ∀ sequence i w, sequence[i]? = some w → (HoldsAny sequence i ps ↔
        ∃ t ∈ ts, TermFits lexicons encoder w.1 w.2 t) := by
  induction h with
  | nil => exact ⟨[], fun _ _ => rfl, by simp [SmallAll], by simp [HoldsAny]⟩
  | @cons t s ts ss h _ ih =>
    obtain ⟨ps, i1, i2, i3⟩ := ih (fun t ht => hk t (by simp [ht])) (fun s hs => hf s (by simp [hs]))
    obtain ⟨p, p1, p2, p3⟩ := term_parses hm h (hk t (by simp))
    refine ⟨p :: ps, ?_, ?_, ?_⟩
    · intro fuel hfuel
      have := hf s (by simp)
      rw [List.mapM_cons, p1 fuel (by omega), i1 fuel hfuel]
      rfl
    · rw [SmallAll]; exact ⟨p2, i2⟩
    · intro sequence i w hw
      rw [HoldsAny, p3 sequence i w hw, i3 sequence i w hw]
      simp

theorem expr_parses {isSpace : Char → Bool} (hm : MarksOk isSpace) {lexicons : List (List Char)}
    {encoder : HMap (List Char) Nat} {e : Expr} {s : List Char} (h : Writes isSpace e s)
    (hk : KnownAll lexicons encoder e) : ParsesTo isSpace lexicons encoder s
      (fun id lexs => ExprFits lexicons encoder id lexs e) := by
  induction h with
  | @parts t ts s h =>
    cases ts with
    | nil =>
      cases h with
      | one h =>
        obtain ⟨p, h1, h2, h3⟩ := term_parses hm h (hk t (by simp))
        refine ⟨p, h1, h2, ?_⟩
        intro sequence i w hw
        rw [h3 sequence i w hw]
        simp [ExprFits]
    | cons t' ts =>
      have h1 : WritesParts isSpace t (t' :: ts) (trim isSpace s) := by
        rw [trim_eq]; exact (parts_right hm (parts_left hm h)).1
      have hbar : '|' ∈ trim isSpace s := by
        have : ∀ {u : Term} {us : List Term} {r : List Char}, WritesParts isSpace u us r → us ≠ [] →
            '|' ∈ r := by
          intro u us r hr hne
          cases hr with
          | one => exact absurd rfl hne
          | more => simp
        exact this h1 (by simp)
      have hlt := splitChar_lt hbar
      have hle := trim_length isSpace s
      obtain ⟨ps, p1, p2, p3⟩ := mapM_parts hm (parts_split hm h1) hk
        s.length (fun w hw => by have := hlt w hw; omega)
      refine ⟨.disjunction ps, ?_, by rw [Small]; exact p2, ?_⟩
      · rintro (_ | fuel) hf
        · omega
        · have hpre := parts_head hm h1
          have hc : (trim isSpace s).contains '|' = true := by simpa using hbar
          rw [PatternMatch.parseAux]
          simp only [hpre, hc]
          rw [if_neg, if_neg, if_neg (by simp), if_pos trivial, p1 fuel (by omega)]
          · rfl
          · intro e; rw [e] at hbar; simp at hbar
          · intro e; rw [e] at hbar; simp at hbar
      · intro sequence i w hw
        rw [Holds, p3 sequence i w hw]
        simp only [ExprFits]
  | @notGroup a b e s ha hb hs ih =>
    obtain ⟨p, h1, h2, h3⟩ := ih hk
    refine ⟨.not p, ?_, by rw [Small]; exact h2, ?_⟩
    · rintro (_ | fuel) hf
      · omega
      · have e1 : a ++ ['!', '('] ++ s ++ [')'] ++ b = a ++ (['!', '('] ++ s ++ [')']) ++ b := by simp
        have e2 : trim isSpace (a ++ ['!', '('] ++ s ++ [')'] ++ b) = ['!', '('] ++ s ++ [')'] := by
          rw [e1]
          refine trim_pad ha hb ⟨?_, ?_⟩ (by simp)
          · intro c hc; simp at hc; rw [← hc]; exact hm _ (by simp)
          · intro c hc
            rw [List.getLast?_append] at hc
            simp at hc; rw [← hc]; exact hm _ (by simp)
        rw [PatternMatch.parseAux, e2]
        rw [if_neg (by simp), if_neg (by simp), if_pos]
        · have e3 : ((['!', '('] ++ s ++ [')']).drop 2).dropLast = s := by simp
          rw [e3, h1 fuel (by simp at hf; omega)]
          rfl
        · refine ⟨by simp [List.isPrefixOf], ?_⟩
          rw [List.isSuffixOf_iff_suffix]
          exact List.suffix_append _ _
    · intro sequence i w hw
      simp only [ExprFits]
      rw [Holds, h3 sequence i w hw]

/-! ## Rules -/

theorem testLoop_ok {sequence : List (Nat × Nat)} {results : List (List PatternMatchResult)} {b : Nat}
    (ps : List PatternMatch) : ∀ cursor, (∀ p ∈ ps, Small p) →
      b + cursor + ps.length ≤ results.length →
      ∃ f, ContextRule.testLoop sequence b results cursor ps = .ok f ∧
        (f = true ↔ ∀ j p, ps[j]? = some p → results[b + cursor + j]? = some [] ∧
          Holds sequence (b + cursor + j) p) := by
  induction ps with
  | nil => intro cursor _ _; exact ⟨true, rfl, by simp⟩
  | cons p ps ih =>
    intro cursor hs hl
    rw [List.length_cons] at hl
    have hlt : b + cursor < results.length := by omega
    rw [ContextRule.testLoop, List.getElem?_eq_getElem hlt]
    obtain ⟨f, h1, h2⟩ := ih (cursor + 1) (fun q hq => hs q (by simp [hq])) (by omega)
    obtain ⟨c, h3, h4⟩ := fits_ok sequence (b + cursor) p (hs p (by simp))
    have split : (∀ j q, (p :: ps)[j]? = some q → results[b + cursor + j]? = some [] ∧
          Holds sequence (b + cursor + j) q) ↔
        (results[b + cursor] = [] ∧ Holds sequence (b + cursor) p) ∧
        (∀ j q, ps[j]? = some q → results[b + (cursor + 1) + j]? = some [] ∧
          Holds sequence (b + (cursor + 1) + j) q) := by
      constructor
      · intro h
        refine ⟨?_, ?_⟩
        · have := h 0 p rfl
          rw [Nat.add_zero, List.getElem?_eq_getElem hlt] at this
          simpa using this
        · intro j q hq
          have := h (j + 1) q (by simpa using hq)
          rwa [show b + cursor + (j + 1) = b + (cursor + 1) + j by omega] at this
      · rintro ⟨⟨a1, a2⟩, a3⟩ j q hq
        cases j with
        | zero =>
          simp only [List.getElem?_cons_zero, Option.some.injEq] at hq
          subst hq
          rw [Nat.add_zero, List.getElem?_eq_getElem hlt, a1]
          exact ⟨rfl, a2⟩
        | succ j =>
          rw [show b + cursor + (j + 1) = b + (cursor + 1) + j by omega]
          exact a3 j q (by simpa using hq)
    rw [split]
    by_cases he : results[b + cursor] = []
    · simp only [he, List.isEmpty_nil, Bool.not_true, Bool.false_eq_true, if_false, true_and]
      rw [h3]
      cases c with
      | true =>
        refine ⟨f, h1, ?_⟩
        rw [h2]
        simp [h4.mp rfl]
      | false =>
        have : ¬ Holds sequence (b + cursor) p := fun h => by simpa using h4.mpr h
        exact ⟨false, rfl, by simp [this]⟩
    · have : (!(results[b + cursor]).isEmpty) = true := by
        cases h : results[b + cursor] with
        | nil => exact absurd h he
        | cons => rfl
      simp only [this, if_true]
      exact ⟨false, rfl, by simp [he]⟩

theorem resultAt_ok {rule : ContextRule} (h : RuleOk rule) {k : Nat} (hk : k < 256) :
    rule.resultAt k = .ok (assigned rule k) := by
  have hmod : k % 256 = k := Nat.mod_eq_of_lt hk
  unfold ContextRule.resultAt assigned
  by_cases ht : rule.tag = []
  · rw [if_pos ht, if_pos (by rw [ht]; rfl), hmod]
  · have : rule.tag.isEmpty = false := by simpa using ht
    rw [if_neg ht, if_neg (by simp [this])]
    have hz : ∀ y ∈ rule.tag.zip rule.tagoffset, y.2.1 + y.2.2 < 256 := fun y hy =>
      h.tags y.2 (List.of_mem_zip hy).2
    generalize rule.tag.zip rule.tagoffset = l at hz
    induction l with
    | nil => rfl
    | cons y l ih =>
      obtain ⟨tag, off, len⟩ := y
      have hy := hz (tag, off, len) (by simp)
      have ih := ih fun z hz' => hz z (by simp [hz'])
      simp only at hy
      rw [ContextRule.tagsAt, hmod, ih]
      by_cases c1 : off ≤ k
      · rw [if_pos c1, if_neg (by omega)]
        by_cases c2 : k < off + len
        · rw [if_pos c2, List.filter_cons, if_pos (by simp [c1, c2])]
          rfl
        · rw [if_neg c2, List.filter_cons, if_neg (by simp [c2])]
      · rw [if_neg c1, List.filter_cons, if_neg (by simp [c1])]

theorem storeLoop_ok {rule : ContextRule} (h : RuleOk rule) (b : Nat) (n : Nat) :
    ∀ (cursor : Nat) (results : List (List PatternMatchResult)), cursor + n ≤ 256 →
      b + cursor + n ≤ results.length →
      ∃ results', rule.storeLoop b cursor n results = .ok results' ∧
        results'.length = results.length ∧ ∀ i : Nat, results'[i]? =
          if b + cursor ≤ i ∧ i < b + cursor + n then some (assigned rule (i - b)) else results[i]? := by
  induction n with
  | zero =>
    intro cursor results _ _
    refine ⟨results, rfl, rfl, fun i => ?_⟩
    rw [if_neg (by omega)]
  | succ n ih =>
    intro cursor results h1 h2
    rw [ContextRule.storeLoop, resultAt_ok h (show cursor < 256 by omega)]
    obtain ⟨r, e1, e2, e3⟩ := ih (cursor + 1) (results.set (b + cursor) (assigned rule cursor))
      (by omega) (by rw [List.length_set]; omega)
    refine ⟨r, e1, by rw [e2, List.length_set], fun i => ?_⟩
    rw [e3 i, List.getElem?_set]
    by_cases c : b + cursor = i
    · rw [if_neg (by omega), if_pos c, if_pos (by omega), if_pos (by omega), show i - b = cursor by omega]
    · rw [if_neg c]
      by_cases c2 : b + cursor ≤ i ∧ i < b + cursor + (n + 1)
      · rw [if_pos (by omega), if_pos c2]
      · rw [if_neg (by omega), if_neg c2]

theorem apply_ok {rule : ContextRule} (h : RuleOk rule) {sequence : List (Nat × Nat)} {b : Nat}
    {results : List (List PatternMatchResult)} (hl : sequence.length = results.length) :
    ∃ results' f, rule.apply sequence b results = .ok (results', f) ∧
      (f = true ↔ Applies rule sequence b results) ∧ results'.length = results.length ∧
      (f = false → results' = results) ∧
      (f = true → ∀ i : Nat, results'[i]? = if b ≤ i ∧ i < b + rule.pattern.length then
        some (assigned rule (i - b)) else results[i]?) := by
  unfold ContextRule.apply
  rw [if_neg (by simpa using hl)]
  by_cases hb : b + rule.pattern.length > sequence.length
  · rw [if_pos hb]
    refine ⟨results, false, rfl, ?_, rfl, fun _ => rfl, fun h => by cases h⟩
    simp only [Bool.false_eq_true, false_iff]
    intro h
    have := h.1.1
    omega
  · rw [if_neg hb]
    obtain ⟨f, h1, h2⟩ := testLoop_ok (sequence := sequence) (results := results) (b := b)
      rule.pattern 0 h.small (by omega)
    have happ : f = true ↔ Applies rule sequence b results := by
      rw [h2]
      constructor
      · intro hh
        refine ⟨⟨by omega, fun j p hj => by simpa using (hh j p hj).2⟩, ?_⟩
        rintro i ⟨c1, c2⟩
        simp only at c1 c2
        have hj : i - b < rule.pattern.length := by omega
        have := (hh (i - b) _ (List.getElem?_eq_getElem hj)).1
        rwa [show b + 0 + (i - b) = i by omega] at this
      · rintro ⟨⟨_, a2⟩, a3⟩ j p hj
        have hlt := (List.getElem?_eq_some_iff.mp hj).1
        exact ⟨a3 _ ⟨by simp, by simp; omega⟩, by simpa using a2 j p hj⟩
    rw [h1]
    cases f with
    | false =>
      exact ⟨results, false, rfl, happ, rfl, fun _ => rfl, fun h => by cases h⟩
    | true =>
      obtain ⟨r, e1, e2, e3⟩ := storeLoop_ok h b rule.pattern.length 0 results
        (by have := h.len; omega) (by omega)
      simp only [bind, Except.bind, if_true, e1, pure, Except.pure]
      exact ⟨r, true, rfl, happ, e2, (fun h => by simp at h), fun _ i => by simpa using e3 i⟩

/-! ## All rules -/

/-- Pairs of position and rule that come before position `b` and rule `j`. -/
def Done (b j : Nat) (p : Nat × Nat) : Prop := p.1 < b ∨ (p.1 = b ∧ p.2 < j)

/-- The state of the loops before rule `j` is tried at position `b`. -/
structure RulesState (rules : List ContextRule) (sequence : List (Nat × Nat))
    (A : List (Nat × Nat)) (results : List (List PatternMatchResult)) (b j : Nat) : Prop where
  len : results.length = sequence.length
  done : ∀ a ∈ A, Done b j a
  fits : ∀ a ∈ A, ∃ rule, rules[a.2]? = some rule ∧ FitsAt rule sequence a.1
  sorted : A.Pairwise Before
  disjoint : A.Pairwise fun a a' => ∀ i, ¬ (Marked rules a i ∧ InRange rules a' i)
  greedy : ∀ p rule, Done b j p → rules[p.2]? = some rule → FitsAt rule sequence p.1 →
    p ∈ A ∨ ∃ a ∈ A, Before a p ∧ ∃ i, Marked rules a i ∧ InRange rules p i
  hit : ∀ a ∈ A, ∀ rule, rules[a.2]? = some rule → ∀ i, Marked rules a i →
    results[i]? = some (assigned rule (i - a.1))
  free : ∀ i < sequence.length, (∀ a ∈ A, ¬ Marked rules a i) → results[i]? = some []

theorem rulesState_step {rules : List ContextRule} {sequence : List (Nat × Nat)}
    {A : List (Nat × Nat)} {results : List (List PatternMatchResult)} {b j : Nat} {rule : ContextRule}
    (hok : RuleOk rule) (hj : rules[j]? = some rule)
    (h : RulesState rules sequence A results b j) :
    ∃ results' f, rule.apply sequence b results = .ok (results', f) ∧
      RulesState rules sequence (if f then A ++ [(b, j)] else A) results' b (j + 1) := by
  obtain ⟨r, f, h1, h2, h3, h4, h5⟩ := apply_ok hok (b := b) (h.len.symm)
  refine ⟨r, f, h1, ?_⟩
  have inr : ∀ i, InRange rules (b, j) i ↔ Covers (b, rule) i := by
    intro i
    unfold InRange
    simp only [hj, Option.some.injEq, exists_eq_left']
  have done_mono : ∀ p, Done b j p → Done b (j + 1) p := by
    intro p hp
    unfold Done at *
    omega
  have done_split : ∀ p : Nat × Nat, Done b (j + 1) p → Done b j p ∨ p = (b, j) := by
    rintro ⟨p1, p2⟩ hp
    unfold Done at *
    simp only [Prod.mk.injEq] at *
    omega
  cases f with
  | false =>
    rw [h4 rfl]
    have hn : ¬ Applies rule sequence b results := fun ha => by simpa using h2.mpr ha
    simp only [Bool.false_eq_true, if_false]
    refine ⟨h.len, fun a ha => done_mono a (h.done a ha), h.fits, h.sorted, h.disjoint, ?_, h.hit, h.free⟩
    intro p rule' hp hr hf
    rcases done_split p hp with hp | rfl
    · exact h.greedy p rule' hp hr hf
    · rw [hj] at hr
      cases hr
      right
      by_contra hcon
      apply hn
      refine ⟨hf, ?_⟩
      intro i hi
      have hlt : i < sequence.length := by
        have := hf.1
        have := hi.2
        simp only at *
        omega
      refine h.free i hlt ?_
      intro a ha hai
      exact hcon ⟨a, ha, h.done a ha, i, hai, (inr i).mpr hi⟩
  | true =>
    have ha := h2.mp rfl
    have h5 := h5 rfl
    simp only [if_true]
    have hnot : ∀ a ∈ A, ∀ i, Marked rules a i → ¬ Covers (b, rule) i := by
      intro a haA i hi hc
      obtain ⟨r', hr', hc', hne⟩ := id hi
      have e1 := h.hit a haA r' hr' i hi
      rw [ha.2 i hc] at e1
      exact hne (Option.some.inj e1).symm
    constructor
    · rw [h3, h.len]
    · intro a haA
      rcases List.mem_append.mp haA with haA | haA
      · exact done_mono a (h.done a haA)
      · rw [List.mem_singleton] at haA
        subst haA
        exact .inr ⟨rfl, Nat.lt_succ_self j⟩
    · intro a haA
      rcases List.mem_append.mp haA with haA | haA
      · exact h.fits a haA
      · rw [List.mem_singleton] at haA
        subst haA
        exact ⟨rule, hj, ha.1⟩
    · rw [List.pairwise_append]
      refine ⟨h.sorted, List.pairwise_singleton _ _, ?_⟩
      intro a haA a' ha'
      rw [List.mem_singleton] at ha'
      subst ha'
      exact h.done a haA
    · rw [List.pairwise_append]
      refine ⟨h.disjoint, List.pairwise_singleton _ _, ?_⟩
      intro a haA a' ha' i hi
      rw [List.mem_singleton] at ha'
      subst ha'
      exact hnot a haA i hi.1 ((inr i).mp hi.2)
    · intro p rule' hp hr hf
      rcases done_split p hp with hp | rfl
      · rcases h.greedy p rule' hp hr hf with h6 | ⟨a, h6, h7⟩
        · exact .inl (List.mem_append_left _ h6)
        · exact .inr ⟨a, List.mem_append_left _ h6, h7⟩
      · exact .inl (by simp)
    · intro a haA rule' hr i hi
      rcases List.mem_append.mp haA with haA | haA
      · rw [h5 i, if_neg]
        · exact h.hit a haA rule' hr i hi
        · intro hc
          exact hnot a haA i hi hc
      · rw [List.mem_singleton] at haA
        subst haA
        rw [hj] at hr
        cases hr
        rw [h5 i]
        obtain ⟨r', hr', hc', _⟩ := hi
        rw [hj] at hr'
        cases hr'
        exact if_pos hc'
    · intro i hi hA
      rw [h5 i]
      split
      · next hc =>
        by_contra hne
        refine hA (b, j) (by simp) ⟨rule, hj, hc, fun he => hne ?_⟩
        simp only at he
        rw [he]
      · exact h.free i hi fun a haA => hA a (List.mem_append_left _ haA)

theorem rulesLoop_ok {rules : List ContextRule} {sequence : List (Nat × Nat)} {b : Nat}
    (hok : ∀ r ∈ rules, RuleOk r) (rest : List ContextRule) :
    ∀ (j : Nat) (A : List (Nat × Nat)) (results : List (List PatternMatchResult)),
      rules.drop j = rest → RulesState rules sequence A results b j →
      ∃ results' A', rulesLoop sequence b rest results (!A.isEmpty) = .ok (results', !A'.isEmpty) ∧
        RulesState rules sequence A' results' b (j + rest.length) := by
  induction rest with
  | nil => intro j A results _ h; exact ⟨results, A, rfl, h⟩
  | cons rule rest ih =>
    intro j A results hd h
    have hj : rules[j]? = some rule := by
      have := congrArg (fun l => l[0]?) hd
      simpa [List.getElem?_drop] using this
    have hd' : rules.drop (j + 1) = rest := by
      rw [← List.drop_drop, hd]; rfl
    obtain ⟨r, f, h1, h2⟩ := rulesState_step (hok rule (List.mem_of_getElem? hj)) hj h
    obtain ⟨r', A', h3, h4⟩ := ih (j + 1) _ r hd' h2
    refine ⟨r', A', ?_, ?_⟩
    · rw [rulesLoop, h1]
      simp only [bind, Except.bind]
      rw [← h3]
      congr 1
      cases f <;> simp
    · rw [List.length_cons, show j + (rest.length + 1) = j + 1 + rest.length by omega]
      exact h4

theorem positionsLoop_ok {rules : List ContextRule} {sequence : List (Nat × Nat)}
    (hok : ∀ r ∈ rules, RuleOk r) (n : Nat) :
    ∀ (b : Nat) (A : List (Nat × Nat)) (results : List (List PatternMatchResult)),
      RulesState rules sequence A results b 0 →
      ∃ results' A', positionsLoop rules sequence (List.range' b n) results (!A.isEmpty) =
          .ok (results', !A'.isEmpty) ∧
        RulesState rules sequence A' results' (b + n) 0 := by
  induction n with
  | zero => intro b A results h; exact ⟨results, A, rfl, h⟩
  | succ n ih =>
    intro b A results h
    obtain ⟨r, A1, h1, h2⟩ := rulesLoop_ok hok rules 0 A results rfl h
    have h2' : RulesState rules sequence A1 r (b + 1) 0 := by
      refine ⟨h2.len, ?_, h2.fits, h2.sorted, h2.disjoint, ?_, h2.hit, h2.free⟩
      · intro a ha
        have := h2.done a ha
        unfold Done at *
        omega
      · intro p rule hp hr hf
        refine h2.greedy p rule ?_ hr hf
        have := (List.getElem?_eq_some_iff.mp hr).1
        unfold Done at *
        omega
    obtain ⟨r', A', h3, h4⟩ := ih (b + 1) A1 r h2'
    refine ⟨r', A', ?_, ?_⟩
    · rw [List.range'_succ, positionsLoop, h1]
      exact h3
    · rwa [show b + (n + 1) = b + 1 + n by omega]

theorem rulesState_init (rules : List ContextRule) (sequence : List (Nat × Nat)) :
    RulesState rules sequence [] (List.replicate sequence.length []) 0 0 := by
  refine ⟨by simp, by simp, by simp, .nil, .nil, ?_, by simp, ?_⟩
  · intro p rule hp
    unfold Done at hp
    omega
  · intro i hi _
    rw [List.getElem?_replicate, if_pos hi]

end Verif.Lemmas
