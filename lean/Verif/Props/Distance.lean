import Verif.Lemmas.Levenshtein
import Verif.Lemmas.Damerau
import Verif.Lemmas.Common

/-!
# Properties C09–C12: edit distances and common substrings

Caps are `u8`, hence at most 255.
-/
namespace Verif.Props

open Verif.Spec Verif.Model Verif.Lemmas

/-- C09: `levenshtein` returns `d` iff `d` is the least number of insertions, deletions and
substitutions and is within the cap. -/
theorem levenshtein_exact (a b : List Nat) (cap : Nat) (hcap : cap ≤ 255) (d : Nat) :
    levenshtein a b cap = some d ↔ IsLevenshtein a b d ∧ d ≤ cap := by
  rw [levenshtein_eq a b cap hcap, IsLevenshtein, isLeast_iff_dist]
  split
  · next h => constructor
              · intro e; cases e; exact ⟨rfl, h⟩
              · rintro ⟨rfl, _⟩; rfl
  · next h => constructor
              · intro e; cases e
              · rintro ⟨rfl, h'⟩; exact absurd h' h

/-- C09: `levenshtein` returns `None` iff every edit sequence is longer than the cap. -/
theorem levenshtein_none (a b : List Nat) (cap : Nat) (hcap : cap ≤ 255) :
    levenshtein a b cap = none ↔ ∀ n, Edits False n a b → cap < n := by
  rw [levenshtein_eq a b cap hcap]
  have hl := dist_isLeast (sw := False) a b
  split
  · next h => constructor
              · intro e; cases e
              · intro h'; exact absurd (h' _ hl.1) (by omega)
  · next h => refine ⟨fun _ n hn => ?_, fun _ => rfl⟩
              have := hl.2 hn; omega

/-- kitten → sitting has distance 3 (k=0 i=1 t=2 e=3 n=4 s=5 g=6) -/
example : levenshtein [0, 1, 2, 2, 3, 4] [5, 1, 2, 2, 1, 4, 6] 3 = some 3 ∧
    levenshtein [0, 1, 2, 2, 3, 4] [5, 1, 2, 2, 1, 4, 6] 2 = none := by decide

/-- C10: `damerau_levenshtein` returns `d` iff `d` is the least number of insertions, deletions,
substitutions and swaps of adjacent symbols, and is within the cap.  The first argument may have
up to 255 symbols. -/
theorem damerau_exact (s t : List Nat) (cap : Nat) (hcap : cap ≤ 255) (hs : s.length ≤ 255)
    (d : Nat) :
    damerauLevenshtein s t cap = .ok (some d) ↔ IsDamerau s t d ∧ d ≤ cap := by
  rw [damerau_eq s t cap hcap hs, IsDamerau, isLeast_iff_dist]
  split
  · next h => constructor
              · intro e; cases e; exact ⟨rfl, h⟩
              · rintro ⟨rfl, _⟩; rfl
  · next h => constructor
              · intro e; cases e
              · rintro ⟨rfl, h'⟩; exact absurd h' h

/-- C10: `None` exactly if every edit sequence is longer than the cap. -/
theorem damerau_none (s t : List Nat) (cap : Nat) (hcap : cap ≤ 255) (hs : s.length ≤ 255) :
    damerauLevenshtein s t cap = .ok none ↔ ∀ n, Edits True n s t → cap < n := by
  rw [damerau_eq s t cap hcap hs]
  have hl := dist_isLeast (sw := True) s t
  split
  · next h => constructor
              · intro e; cases e
              · intro h'; exact absurd (h' _ hl.1) (by omega)
  · next h => refine ⟨fun _ n hn => ?_, fun _ => rfl⟩
              have := hl.2 hn; omega

/-- C10: for arguments of any length the function does not panic, and a returned distance is
within the cap and reached or exceeded by the true one from below: no answer is too small.  It is never
larger than the distance without swaps, and if that is within the cap, there is an answer. -/
theorem damerau_sound_any_length (s t : List Nat) (cap : Nat) (hcap : cap ≤ 255) :
    ∃ o, damerauLevenshtein s t cap = .ok o ∧
      (∀ d, o = some d → d ≤ cap ∧ (∃ n, n ≤ d ∧ IsDamerau s t n) ∧ ∃ n, d ≤ n ∧ IsLevenshtein s t n) ∧
      (o = none → ∀ n, IsLevenshtein s t n → cap < n) := by
  obtain ⟨o, h, h', h''⟩ := damerau_ge s t cap hcap
  refine ⟨o, h, fun d hd => ⟨(h' d hd).2.2, ⟨_, (h' d hd).1, dist_isLeast s t⟩,
    _, (h' d hd).2.1, dist_isLeast s t⟩, fun ho n hn => ?_⟩
  rw [IsLevenshtein, isLeast_iff_dist] at hn
  exact hn ▸ h'' ho

/-- C11: a sequence of any length has distance zero to itself. -/
theorem damerau_self (s : List Nat) (cap : Nat) (hcap : cap ≤ 255) :
    damerauLevenshtein s s cap = .ok (some 0) := by
  obtain ⟨o, h, h', h''⟩ := damerau_ge s s cap hcap
  have h0 : dist False s s = 0 := dist_eq_zero.mpr rfl
  cases o with
  | none => have := h'' rfl; omega
  | some d =>
    have := (h' d rfl).2.1
    obtain rfl : d = 0 := by omega
    exact h

/-- CA → ABC has unrestricted distance 2 (the restricted variant would say 3). -/
example : damerauLevenshtein [2, 0] [0, 1, 2] 2 = .ok (some 2) ∧
    damerauLevenshtein [2, 0] [0, 1, 2] 1 = .ok none ∧
    damerauLevenshtein [0, 1, 2, 3] [1, 0, 3, 2] 3 = .ok (some 2) := by decide

/-- C11: zero exactly for equal sequences. -/
theorem distance_zero_iff (s t : List Nat) (cap : Nat) (hcap : cap ≤ 255) (hs : s.length ≤ 255) :
    (levenshtein s t cap = some 0 ↔ s = t) ∧ (damerauLevenshtein s t cap = .ok (some 0) ↔ s = t) := by
  rw [levenshtein_exact s t cap hcap, damerau_exact s t cap hcap hs, IsLevenshtein, IsDamerau,
    isLeast_iff_dist, isLeast_iff_dist, dist_eq_zero, dist_eq_zero]
  simp

/-- C11: symmetry, including the answers `None`. -/
theorem distance_symm (s t : List Nat) (cap : Nat) (hcap : cap ≤ 255) (hs : s.length ≤ 255)
    (ht : t.length ≤ 255) :
    levenshtein s t cap = levenshtein t s cap ∧
    damerauLevenshtein s t cap = damerauLevenshtein t s cap := by
  rw [levenshtein_eq s t cap hcap, levenshtein_eq t s cap hcap, damerau_eq s t cap hcap hs,
    damerau_eq t s cap hcap ht, dist_symm, dist_symm (sw := True) s t]
  exact ⟨rfl, rfl⟩

/-- C11: triangle inequality for the values returned. -/
theorem distance_triangle (s u t : List Nat) (cap : Nat) (hcap : cap ≤ 255)
    (hs : s.length ≤ 255) (hu : u.length ≤ 255) (d₁ d₂ : Nat) (hsum : d₁ + d₂ ≤ cap) :
    (levenshtein s u cap = some d₁ → levenshtein u t cap = some d₂ →
      ∃ d, levenshtein s t cap = some d ∧ d ≤ d₁ + d₂) ∧
    (damerauLevenshtein s u cap = .ok (some d₁) → damerauLevenshtein u t cap = .ok (some d₂) →
      ∃ d, damerauLevenshtein s t cap = .ok (some d) ∧ d ≤ d₁ + d₂) := by
  simp only [levenshtein_exact _ _ cap hcap, damerau_exact _ _ cap hcap hs,
    damerau_exact _ _ cap hcap hu, IsLevenshtein, IsDamerau, isLeast_iff_dist]
  constructor
  · rintro ⟨h1, _⟩ ⟨h2, _⟩
    have := dist_triangle (sw := False) s u t
    exact ⟨_, ⟨rfl, by omega⟩, by omega⟩
  · rintro ⟨h1, _⟩ ⟨h2, _⟩
    have := dist_triangle (sw := True) s u t
    exact ⟨_, ⟨rfl, by omega⟩, by omega⟩

/-- C11: the distance is at least the difference and at most the maximum of the lengths, and the
Damerau variant is never larger than the Levenshtein one. -/
theorem distance_bounds (s t : List Nat) (cap : Nat) (hcap : cap ≤ 255) (hs : s.length ≤ 255)
    (d e : Nat) (hd : levenshtein s t cap = some d) (he : damerauLevenshtein s t cap = .ok (some e)) :
    e ≤ d ∧ d ≤ max s.length t.length ∧ s.length ≤ t.length + e ∧ t.length ≤ s.length + e := by
  rw [levenshtein_exact _ _ cap hcap, IsLevenshtein, isLeast_iff_dist] at hd
  rw [damerau_exact _ _ cap hcap hs] at he
  obtain ⟨rfl, _⟩ := hd
  have he1 := he.1
  rw [IsDamerau, isLeast_iff_dist] at he1
  subst he1
  have h1 := dist_le_max (sw := False) s t
  have h2 := dist_length (sw := True) s t
  refine ⟨?_, h1, h2.1, h2.2⟩
  refine he.1.2 ?_
  have hE : Edits False (dist False s t) s t := (dist_isLeast s t).1
  have mono : ∀ {n : Nat} {a b : List Nat}, Edits False n a b → Edits True n a b := by
    intro n a b h
    induction h with
    | refl s => exact .refl s
    | tail h0 h' ih =>
      refine .tail ih ?_
      clear ih h0
      induction h' with
      | ins c s => exact .ins c s
      | del c s => exact .del c s
      | sub c d s => exact .sub c d s
      | swap h => exact h.elim
      | cons c _ ih => exact .cons c ih
  exact mono hE

/-- The hypotheses of `distance_triangle` and `distance_bounds` are met, with strict inequality. -/
example : damerauLevenshtein [0, 1] [1, 0] 9 = .ok (some 1) ∧ levenshtein [0, 1] [1, 0] 9 = some 2 ∧
    damerauLevenshtein [1, 0] [1, 2, 0] 9 = .ok (some 1) ∧
    damerauLevenshtein [0, 1] [1, 2, 0] 9 = .ok (some 2) := by decide

/-- C12: the common prefix length is the greatest length at which the beginnings agree. -/
theorem common_prefix_exact (s t : List Nat) :
    IsGreatest {k | k ≤ s.length ∧ k ≤ t.length ∧ s.take k = t.take k} (commonPrefixLength s t) := by
  refine ⟨⟨prefix_le s t, prefix_comm s t ▸ prefix_le t s, prefix_take s t⟩, ?_⟩
  rintro k ⟨h1, _, h3⟩
  have h4 : s.take k <+: t := by rw [h3]; exact List.take_prefix _ _
  have := prefix_max (List.take_prefix k s) h4
  rwa [List.length_take, Nat.min_eq_left h1] at this

/-- C12: the common suffix length is the greatest length at which the ends agree. -/
theorem common_suffix_exact (s t : List Nat) :
    IsGreatest {k | k ≤ s.length ∧ k ≤ t.length ∧
      s.drop (s.length - k) = t.drop (t.length - k)} (commonSuffixLength s t) := by
  rw [suffix_eq]
  have h := common_prefix_exact s.reverse t.reverse
  have e : {k | k ≤ s.length ∧ k ≤ t.length ∧ s.drop (s.length - k) = t.drop (t.length - k)} =
      {k | k ≤ s.reverse.length ∧ k ≤ t.reverse.length ∧ s.reverse.take k = t.reverse.take k} := by
    ext k
    simp only [List.length_reverse, List.take_reverse, List.reverse_inj]
  rw [e]; exact h

/-- C12: the longest common substring length is the greatest length of a contiguous sequence that
occurs in both. -/
theorem longest_common_substring_exact (s t : List Nat) :
    IsGreatest {k | ∃ z : List Nat, z <:+: s ∧ z <:+: t ∧ z.length = k}
      (longestCommonSubstringLength s t) := by
  refine ⟨lcs_mem s t, ?_⟩
  rintro k ⟨z, h1, h2, rfl⟩
  exact lcs_max h1 h2

/-- C12: consequences used by the scoring: no length exceeds that of an argument, and on equal
arguments each is the whole length. -/
theorem common_lengths_bounds (s t : List Nat) :
    commonPrefixLength s t ≤ min s.length t.length ∧
    commonSuffixLength s t ≤ min s.length t.length ∧
    longestCommonSubstringLength s t ≤ min s.length t.length ∧
    commonPrefixLength s s = s.length ∧ commonSuffixLength s s = s.length ∧
    longestCommonSubstringLength s s = s.length := by
  have p := common_prefix_exact s t
  have q := common_suffix_exact s t
  obtain ⟨z, h1, h2, h3⟩ := lcs_mem s t
  have l1 := h1.length_le
  have l2 := h2.length_le
  refine ⟨le_min p.1.1 p.1.2.1, le_min q.1.1 q.1.2.1, by rw [← h3]; exact le_min l1 l2, ?_, ?_, ?_⟩
  · exact le_antisymm (common_prefix_exact s s).1.1 ((common_prefix_exact s s).2 ⟨le_rfl, le_rfl, rfl⟩)
  · exact le_antisymm (common_suffix_exact s s).1.1 ((common_suffix_exact s s).2 ⟨le_rfl, le_rfl, rfl⟩)
  · obtain ⟨z, g1, _, g3⟩ := lcs_mem s s
    have := g1.length_le
    exact le_antisymm (by omega) (lcs_max (List.infix_refl s) (List.infix_refl s))

example : commonPrefixLength [1, 2, 3, 4] [1, 2, 4, 4] = 2 ∧
    commonSuffixLength [1, 2, 3, 4] [1, 2, 4, 4] = 1 ∧
    longestCommonSubstringLength [5, 1, 2, 3] [1, 2, 3, 5] = 3 := by decide

end Verif.Props
