import Verif.Props.Ieee
import Mathlib.Tactic.LinearCombination

/-!
# C116: words with the same score
-/
namespace Verif.Props

open Verif.Model Verif.Spec Verif.Lemmas

/-! ## Frequencies -/

/-- Frequencies of less than 2³² are told apart. -/
theorem relFreq_strict {n m top : Nat} (h : n < m) (hm : m ≤ top) (htop : top < 2 ^ 32) :
    Rounding.binary64.rnd (Rounding.binary64.rnd n / Rounding.binary64.rnd top) <
      Rounding.binary64.rnd (Rounding.binary64.rnd m / Rounding.binary64.rnd top) := by
  have hacc := binary64_accurate
  have hηu : (2 : Rat) ^ (-1075 : Int) ≤ 2 ^ (-53 : Int) := zpow_le_zpow_right₀ (by norm_num) (by norm_num)
  have h1 := (relFreq_accurate hacc (by norm_num) (two_zpow_pos _).le hηu (h.le.trans hm) (by omega)).2.2
  have h2 := (relFreq_accurate hacc (by norm_num) (two_zpow_pos _).le hηu hm (by omega)).2.2
  have ht : (0 : Rat) < top := by exact_mod_cast (show 0 < top by omega)
  have h3 : (n : Rat) / top + 1 / top ≤ m / top := by
    rw [← add_div]
    refine div_le_div_of_nonneg_right ?_ ht.le
    exact_mod_cast h
  have h4 : (2 : Rat) ^ (-32 : Int) ≤ 1 / top := by
    rw [zpow_neg, ← one_div]
    refine one_div_le_one_div_of_le ht ?_
    rw [show (2 : Rat) ^ (32 : Int) = 2 ^ 32 by norm_num]
    exact_mod_cast htop.le
  have h5 : 20 * (2 : Rat) ^ (-53 : Int) < 2 ^ (-32 : Int) := by norm_num
  have h6 := (abs_le.mp h1).2
  have h7 := (abs_le.mp h2).1
  linarith

/-- Without frequency ranking, words with the same computed score are listed by frequency. -/
theorem computed_ties {x : TextExt} (hx : x.f64 = .binary64) {alphabet : Alphabet}
    {as : List (List (List Char × Option Nat × VocabParams))} {w : Weights} {p : Params} {text : List Char}
    {top : Nat} (htop : top < 2 ^ 32) {hits : List Hit} (h : Ranked x alphabet as w p text top hits)
    (hfw : p.freqWeight = 0) : hits.Pairwise fun u v => u.score = v.score → v.freq ≤ u.freq := by
  refine h.order.imp_of_mem ?_
  intro u v hu hv huv he
  obtain ⟨hr, ⟨hn, _⟩, hf⟩ := (h.mem v).mp hv
  have hle : v.freq ≤ top := (h.greatest (List.ne_nil_of_mem hv)).2 ⟨v.word, v.score, hr, hn, hf⟩
  unfold Hit.NotWorse Hit.relFreq at huv
  rw [if_pos hfw, hx] at huv
  by_contra hlt
  have := relFreq_strict (not_le.mp hlt) hle htop
  rcases huv with h | ⟨_, h⟩
  · exact absurd he h.ne'
  · exact absurd this (not_lt.mpr h)

/-! ## Texts whose length is a power of two -/

/-- Multiples of 2⁻¹⁰ up to 2⁴³ are numbers of `f64`. -/
theorem rnd_dyadic {n : Int} (hn : |n| ≤ 2 ^ 53) : Rounding.binary64.rnd (n / 1024) = n / 1024 := by
  have := roundBinary_exact (prec := 53) (emin := -1022) (by norm_num) (n := n) (e := -10) hn (by norm_num)
  have e : (n : Rat) / 1024 = n * 2 ^ (-10 : Int) := by
    rw [show (2 : Rat) ^ (-10 : Int) = 1 / 1024 by norm_num]
    ring
  rw [e]
  exact this

/-- With the default weights, scores of texts of 1, 2, 4, …, 128 symbols are computed without rounding. -/
theorem score_exact_of_power {k : Nat} (hk : k ≤ 7) {d : Distance} (h1 : d.lcs ≤ 2 ^ k) (h2 : d.prefixlen ≤ 2 ^ k)
    (h3 : d.suffixlen ≤ 2 ^ k) {s : Rat}
    (h : ScoreOf .binary64 ⟨1 / 2, 1 / 8, 1 / 8, 1 / 8, 1 / 8⟩ (2 ^ k) d s) :
    s = exactScore ⟨1 / 2, 1 / 8, 1 / 8, 1 / 8, 1 / 8⟩ (2 ^ k) d := by
  have hck : 2 ^ (7 - k) * 2 ^ k = 128 := by
    rw [← pow_add, Nat.sub_add_cancel hk]
    norm_num
  generalize 2 ^ (7 - k) = c at hck
  generalize 2 ^ k = len at *
  have hc : (c : Rat) * len = 128 := by exact_mod_cast hck
  have hl : (len : Rat) ≠ 0 := by
    rintro h
    rw [h] at hc
    norm_num at hc
  have le128 : ∀ {j : Nat}, j ≤ len → c * j ≤ 128 := fun hj => hck ▸ Nat.mul_le_mul_left c hj
  have ratio : ∀ j : Nat, (j : Rat) / len = ((8 * (c * j : Nat) : Int) : Rat) / 1024 := by
    intro j
    rw [div_eq_div_iff hl (by norm_num)]
    push_cast
    linear_combination (-8 * (j : Rat)) * hc
  have rd : ∀ n : Int, |n| ≤ 2048 → Rounding.binary64.rnd ((n : Rat) / 1024) = n / 1024 := fun n hn =>
    rnd_dyadic (hn.trans (by norm_num))
  have rratio : ∀ j : Nat, j ≤ len → Rounding.binary64.rnd ((j : Rat) / len) = (j : Rat) / len := by
    intro j hj
    rw [ratio j]
    refine rd _ ?_
    have := le128 hj
    rw [abs_of_nonneg (by positivity)]
    omega
  have rpart : ∀ j : Nat, j ≤ len → Rounding.binary64.rnd (1 / 8 * Rounding.binary64.rnd ((j : Rat) / len)) =
      ((c * j : Nat) : Int) / 1024 := by
    intro j hj
    rw [rratio j hj, ratio j]
    have h := rd (c * j : Nat) (by
      have := le128 hj
      rw [abs_of_nonneg (by positivity)]
      omega)
    have e : (1 : Rat) / 8 * (((8 * (c * j : Nat) : Int) : Rat) / 1024) = ((c * j : Nat) : Int) / 1024 := by
      push_cast
      ring
    rw [e]
    exact h
  have epart : ∀ j : Nat, (1 : Rat) / 8 * (j / len) = ((c * j : Nat) : Int) / 1024 := by
    intro j
    rw [ratio j]
    push_cast
    ring
  have hsum : roundedSum .binary64 [1 / 2, 1 / 8, 1 / 8, 1 / 8, 1 / 8] = 1 := by decide +kernel
  obtain ⟨kept, hkept, rfl⟩ := h
  have hL : ∃ L : Int, 0 ≤ L ∧ L ≤ 512 ∧ Rounding.binary64.rnd (1 / 2 * kept) = L / 1024 ∧
      1 / 2 * (if d.ld ≤ len then 1 - (d.ld : Rat) / len else 0) = (L : Rat) / 1024 := by
    rcases hkept with ⟨hle, rfl⟩ | ⟨hlt, rfl⟩
    · have h128 := le128 hle
      refine ⟨512 - 4 * (c * d.ld : Nat), by omega, by omega, ?_, ?_⟩
      · rw [rratio _ hle, ratio d.ld]
        have e : (1 : Rat) - ((8 * (c * d.ld : Nat) : Int) : Rat) / 1024 =
            ((1024 - 8 * (c * d.ld : Nat) : Int) : Rat) / 1024 := by
          push_cast
          ring
        rw [e, rd _ (abs_le.mpr ⟨by omega, by omega⟩)]
        have e' : (1 : Rat) / 2 * (((1024 - 8 * (c * d.ld : Nat) : Int) : Rat) / 1024) =
            ((512 - 4 * (c * d.ld : Nat) : Int) : Rat) / 1024 := by
          push_cast
          ring
        rw [e', rd _ (abs_le.mpr ⟨by omega, by omega⟩)]
      · rw [if_pos hle, ratio d.ld]
        push_cast
        ring
    · refine ⟨0, le_rfl, by omega, ?_, ?_⟩
      · rw [mul_zero, Rounding.binary64.zero]
        norm_num
      · rw [if_neg (not_le.mpr hlt)]
        norm_num
  obtain ⟨L, l0, l1, hL, eL⟩ := hL
  have hC : ∃ C : Int, 0 ≤ C ∧ C ≤ 128 ∧ (if d.samecase then (1 : Rat) / 8 else 0) = C / 1024 := by
    split
    · exact ⟨128, by norm_num, by norm_num, by norm_num⟩
    · exact ⟨0, by norm_num, by norm_num, by norm_num⟩
  obtain ⟨C, c0, c1, hC⟩ := hC
  have b1 := le128 h1
  have b2 := le128 h2
  have b3 := le128 h3
  have step : ∀ a b : Int, 0 ≤ a → 0 ≤ b → a + b ≤ 2048 →
      Rounding.binary64.rnd ((a : Rat) / 1024 + (b : Rat) / 1024) = ((a + b : Int) : Rat) / 1024 := by
    intro a b ha hb hab
    rw [← add_div]
    have := rd (a + b) (by rw [abs_of_nonneg (by omega)]; exact hab)
    push_cast at this ⊢
    exact this
  unfold exactScore
  simp only [hsum, div_one, eL, epart, hC]
  simp only [roundedSum, List.foldl_cons, List.foldl_nil, hL, rpart _ h1, rpart _ h2, rpart _ h3]
  rw [step _ _ l0 (by omega) (by omega), step _ _ (by omega) (by omega) (by omega),
    step _ _ (by omega) (by omega) (by omega), step _ _ (by omega) c0 (by omega),
    rd _ (by rw [abs_of_nonneg (by omega)]; omega)]
  push_cast
  ring

/-- **C116**, what holds of it: with the default weights, and for texts of 1, 2, 4, …, 128 symbols, words are listed
by the means that their scores stand for, and by frequency where these are the same. -/
theorem ties_by_frequency_partial {x : TextExt} (hx : x.f64 = .binary64) {alphabet : Alphabet}
    {as : List (List (List Char × Option Nat × VocabParams))} {p : Params} {text : List Char}
    {qs : List Nat} (hq : Encodes alphabet (alphabet.length + 1) text qs) {k : Nat} (hk : k ≤ 7)
    (hlen : qs.length = 2 ^ k) {top : Nat} (htop : top < 2 ^ 32) {hits : List Hit}
    (h : Ranked x alphabet as ⟨1 / 2, 1 / 8, 1 / 8, 1 / 8, 1 / 8⟩ p text top hits) (hfw : p.freqWeight = 0) :
    hits.Pairwise fun u v => ∀ e e',
      ExactScore x alphabet ⟨1 / 2, 1 / 8, 1 / 8, 1 / 8, 1 / 8⟩ text u.word e →
      ExactScore x alphabet ⟨1 / 2, 1 / 8, 1 / 8, 1 / 8, 1 / 8⟩ text v.word e' →
      e' < e ∨ e' = e ∧ v.freq ≤ u.freq := by
  have acc : ∀ {word s e}, Near x alphabet ⟨1 / 2, 1 / 8, 1 / 8, 1 / 8, 1 / 8⟩ p text word s →
      ExactScore x alphabet ⟨1 / 2, 1 / 8, 1 / 8, 1 / 8, 1 / 8⟩ text word e → s = e := by
    rintro word s e ⟨a, b, qs', ns, d, na, ne, h1, h2, h3, h4, h5, h6, h7, h8, h9, h10, h11⟩ he
    obtain rfl := encodes_unique hq h3
    rw [exactScore_unique he ⟨qs, ns, d, h3, h4, h8, rfl⟩]
    obtain ⟨i1, i2, i3⟩ := distance_le h8
    rw [hx] at h11
    rw [hlen] at h11 i1 i2 i3 ⊢
    exact score_exact_of_power hk i1 i2 i3 h11
  refine (h.order.and (computed_ties hx htop h hfw)).imp_of_mem ?_
  intro u v hu hv ⟨huv, ht⟩ e e' he he'
  obtain ⟨_, ⟨hn, _⟩, _⟩ := (h.mem u).mp hu
  obtain ⟨_, ⟨hn', _⟩, _⟩ := (h.mem v).mp hv
  rw [acc hn he, acc hn' he'] at ht
  unfold Hit.NotWorse at huv
  rw [if_pos hfw, acc hn he, acc hn' he'] at huv
  rcases huv with h | ⟨h, _⟩
  · exact .inl h
  · exact .inr ⟨h, ht h.symm⟩

/-- Words listed for `ab`. -/
example : ∃ L top hits, exLoadR.load ⟨['a'], [(['l'], 3)], [], [], [], [], []⟩ exOrders = .ok L ∧
    Ranked exText64 L.vm.alphabet exAddedS ⟨1 / 2, 1 / 8, 1 / 8, 1 / 8, 1 / 8⟩ (exParams64 0) "ab".toList top
      hits ∧
    hits.Pairwise fun u v => ∀ e e',
      ExactScore exText64 L.vm.alphabet ⟨1 / 2, 1 / 8, 1 / 8, 1 / 8, 1 / 8⟩ "ab".toList u.word e →
      ExactScore exText64 L.vm.alphabet ⟨1 / 2, 1 / 8, 1 / 8, 1 / 8, 1 / 8⟩ "ab".toList v.word e' →
      e' < e ∨ e' = e ∧ v.freq ≤ u.freq := by
  obtain ⟨L, top, hits, res, h1, h2, _⟩ := exRanked64 0 le_rfl (text := "ab".toList) (by decide) (by decide)
  refine ⟨L, top, hits, h1, h2, ?_⟩
  by_cases hne : hits = []
  · rw [hne]
    exact .nil
  · have htop : top < 2 ^ 32 := by
      obtain ⟨t, s, _, _, ⟨a, ha, _, e⟩, _⟩ := (h2.greatest hne).1
      rw [← e]
      have hall : ∀ a ∈ exAddedS.flatten, a.2.1.getD 1 < 2 ^ 32 := by decide
      exact hall a ha
    have hal : L.vm.alphabet = [["a".toList, "A".toList], ["b".toList]] := by
      cases h1
      decide
    have hq : Encodes L.vm.alphabet (L.vm.alphabet.length + 1) "ab".toList [0, 1] := by
      rw [hal]
      exact (normalize_is_greedy_encoding _ (by unfold NoEmpty; decide) (by decide) _ _).mp rfl
    exact ties_by_frequency_partial rfl hq (k := 1) (by decide) rfl htop h2 rfl

/-! ## A tie that rounding decides -/

/-- Letters `a`, `b`, `c` and `x`; the words `abxc`, 1000 times, and `axbc`, once; IEEE 754 arithmetic. -/
def exTool64 : ToolExt :=
  { exTool with
    load := { exLoad with file := fun f =>
      if f = ['a'] then some [some ['a'], some ['b'], some ['c'], some ['x']]
      else if f = ['l'] then some [some "abxc\t1000".toList, some "axbc\t1".toList]
      else none }
    text := exText64
    showF := fun q => if q = 3002399751580331 / 2 ^ 52 then "0.6666666666666667".toList
      else if q = 6004799503160661 / 2 ^ 53 then "0.6666666666666666".toList else ['?']
    stdin := [some "abc".toList] }

/-- `query --alphabet a --lexicon l` -/
def exQuery64 : CommandLine :=
  { sub := .query, debug := none, given := [(.alphabet, ['a']), (.lexicon, ['l'])] }

theorem exScore64 {word : List Char} {ns : List Nat} {sc : Bool} {e : Rat}
    (h1 : normalizeToAlphabet [["a".toList], ["b".toList], ["c".toList], ["x".toList]] word = .ok ns)
    (h2 : damerauLevenshtein [0, 1, 2] ns 3 = .ok (some 1))
    (h3 : sameCase exText64.isLower ⟨1 / 2, 1 / 8, 1 / 8, 1 / 8, 1 / 8⟩ word "abc".toList = .ok sc)
    (h4 : exactScore ⟨1 / 2, 1 / 8, 1 / 8, 1 / 8, 1 / 8⟩ 3
      (mkDistance ⟨1 / 2, 1 / 8, 1 / 8, 1 / 8, 1 / 8⟩ [0, 1, 2] ns 1 sc) = e) :
    ExactScore exText64 [["a".toList], ["b".toList], ["c".toList], ["x".toList]]
      ⟨1 / 2, 1 / 8, 1 / 8, 1 / 8, 1 / 8⟩ "abc".toList word e := by
  have enc := normalize_is_greedy_encoding [["a".toList], ["b".toList], ["c".toList], ["x".toList]]
    (by unfold NoEmpty; decide) (by decide)
  have hd := ((damerau_exact [0, 1, 2] ns 3 (by decide) (by decide) 1).mp h2).1
  exact ⟨[0, 1, 2], ns, _, (enc _ _).mp rfl, (enc _ _).mp h1, (isDistance_iff hd h3 _).mpr rfl, h4.symm⟩

/-- **C116** fails: for `abc`, of the two words with the same mean, 2/3, the one that occurs once is listed before the
one that occurs 1000 times; for computed scores are not the same. -/
theorem tie_decided_by_rounding :
    exTool64.text.f32 = .binary32 ∧ exTool64.text.f64 = .binary64 ∧
    ExactScore exTool64.text [["a".toList], ["b".toList], ["c".toList], ["x".toList]]
      ⟨1 / 2, 1 / 8, 1 / 8, 1 / 8, 1 / 8⟩ "abc".toList "abxc".toList (2 / 3) ∧
    ExactScore exTool64.text [["a".toList], ["b".toList], ["c".toList], ["x".toList]]
      ⟨1 / 2, 1 / 8, 1 / 8, 1 / 8, 1 / 8⟩ "abc".toList "axbc".toList (2 / 3) ∧
    exTool64.main exQuery64 [] = .ok (.output
      "abc\taxbc\t0.6666666666666667\t\tabxc\t0.6666666666666666\t\n".toList []) :=
  ⟨rfl, rfl, exScore64 (sc := true) rfl (by decide +kernel) (by decide +kernel) (by decide +kernel),
    exScore64 (sc := true) rfl (by decide +kernel) (by decide +kernel) (by decide +kernel), by decide +kernel⟩

/-- Without rounding it would be the other way round. -/
example : { exTool64 with text := exText, showF := fun q => if q = 2 / 3 then "2/3".toList else ['?'] }.main
      exQuery64 [] = .ok (.output "abc\tabxc\t2/3\t\taxbc\t2/3\t\n".toList []) := by
  decide +kernel

end Verif.Props
