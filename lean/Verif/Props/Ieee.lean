import Verif.Lemmas.Ieee
import Verif.Props.SimilarRuns

/-!
# C115: what is computed in IEEE 754 arithmetic
-/
namespace Verif.Props

open Verif.Model Verif.Spec Verif.Lemmas

/-! ## Rounding -/

/-- No integer is nearer than the nearest one. -/
theorem nearestEven_nearest (q : Rat) (k : Int) : |(nearestEven q : Rat) - q| ≤ |(k : Rat) - q| := by
  by_cases h : k = nearestEven q
  · rw [h]
  · have h1 := nearestEven_close q
    have h2 : (1 : Rat) ≤ |(k : Rat) - nearestEven q| := by
      have : (1 : Int) ≤ |k - nearestEven q| := Int.one_le_abs (sub_ne_zero.mpr h)
      exact_mod_cast this
    have h3 := abs_sub_le (k : Rat) q (nearestEven q)
    rw [abs_sub_comm q] at h3
    linarith

/-- Where another one is as near, it is even. -/
theorem nearestEven_tie {q : Rat} {k : Int} (hk : k ≠ nearestEven q)
    (h : |(nearestEven q : Rat) - q| = |(k : Rat) - q|) : Even (nearestEven q) := by
  have h1 := nearestEven_close q
  have h2 : (1 : Rat) ≤ |(k : Rat) - nearestEven q| := by
    have : (1 : Int) ≤ |k - nearestEven q| := Int.one_le_abs (sub_ne_zero.mpr hk)
    exact_mod_cast this
  have h3 := abs_sub_le (k : Rat) q (nearestEven q)
  rw [abs_sub_comm q] at h3
  have h4 : |(nearestEven q : Rat) - q| = 1 / 2 := by linarith
  have hf := Int.floor_add_fract q
  have h0 := Int.fract_nonneg q
  have h5 := Int.fract_lt_one q
  clear h1 h2 h3 h hk
  unfold nearestEven at h4 ⊢
  split_ifs at h4 ⊢ with ha hb hc
  · rw [show ((⌊q⌋ : Int) : Rat) - q = -Int.fract q by linarith, abs_neg, abs_of_nonneg h0] at h4
    linarith
  · push_cast at h4
    rw [show ((⌊q⌋ : Int) : Rat) + 1 - q = 1 - Int.fract q by linarith, abs_of_nonneg (by linarith)] at h4
    linarith
  · exact hc
  · exact Int.even_add_one.mpr hc

/-- Above the least exponent, a number has its first place where the format has. -/
theorem first_place {prec : Nat} {emin : Int} {x : Rat} (hx : x ≠ 0)
    (h : emin - (prec - 1) < lastPlace prec emin x) :
    (2 : Rat) ^ (lastPlace prec emin x + (prec - 1)) ≤ |x| := by
  have hlog : lastPlace prec emin x + (prec - 1) = Int.log 2 |x| := by
    unfold lastPlace at h ⊢
    omega
  have := Int.zpow_log_le_self (b := 2) one_lt_two (abs_pos.mpr hx)
  rw [hlog]
  exact_mod_cast this

/-- A number of the format is a multiple of the last place, or some multiple is nearer. -/
theorem number_or_nearer {prec : Nat} (hp : 1 ≤ prec) {emin : Int} {x z : Rat} (hx : x ≠ 0)
    (hz : IsNumber prec emin z) :
    ∃ k : Int, z = k * 2 ^ lastPlace prec emin x ∨ |k * 2 ^ lastPlace prec emin x - x| < |z - x| := by
  obtain ⟨m, f, hm, hf, rfl⟩ := hz
  by_cases hlf : lastPlace prec emin x ≤ f
  · obtain ⟨d, hd⟩ := Int.eq_ofNat_of_zero_le (sub_nonneg.mpr hlf)
    refine ⟨m * 2 ^ d, .inl ?_⟩
    have : f = d + lastPlace prec emin x := by omega
    conv_lhs => rw [this, zpow_add₀ two_ne_zero, zpow_natCast]
    push_cast
    ring
  · have hfirst := first_place hx (prec := prec) (emin := emin) (by omega)
    generalize lastPlace prec emin x = l at *
    have hzs : |(m : Rat) * 2 ^ f| < 2 ^ (l + ((prec : Int) - 1)) := by
      rw [abs_mul, abs_of_pos (two_zpow_pos f)]
      have h1 : |(m : Rat)| < 2 ^ (prec : Int) := by
        rw [zpow_natCast]
        exact_mod_cast hm
      calc |(m : Rat)| * 2 ^ f < 2 ^ (prec : Int) * 2 ^ f := mul_lt_mul_of_pos_right h1 (two_zpow_pos f)
        _ = 2 ^ ((prec : Int) + f) := (zpow_add₀ two_ne_zero _ _).symm
        _ ≤ _ := zpow_le_zpow_right₀ (by norm_num) (by omega)
    have hpow : (2 : Rat) ^ (l + ((prec : Int) - 1)) = ((2 ^ (prec - 1) : Int) : Rat) * 2 ^ l := by
      rw [show l + ((prec : Int) - 1) = ((prec - 1 : Nat) : Int) + l by omega, zpow_add₀ two_ne_zero, zpow_natCast]
      push_cast
      rfl
    rw [hpow] at hfirst hzs
    generalize (m : Rat) * 2 ^ f = z at hzs ⊢
    have ht := abs_sub_abs_le_abs_sub x z
    rw [abs_sub_comm x z] at ht
    rcases lt_or_gt_of_ne hx with hn | hn
    · refine ⟨-2 ^ (prec - 1), .inr ?_⟩
      rw [abs_of_neg hn] at hfirst ht
      push_cast at *
      rw [abs_of_nonneg (by linarith)]
      linarith
    · refine ⟨2 ^ (prec - 1), .inr ?_⟩
      rw [abs_of_pos hn] at hfirst ht
      push_cast at *
      rw [abs_of_nonpos (by linarith)]
      linarith

/-- **C115**: rounding gives the nearest number of the format, and the even one of two. -/
theorem binary_nearest {prec : Nat} (hp : 1 ≤ prec) (emin : Int) (x : Rat) :
    NearestNumber prec emin x (roundBinary prec emin x) := by
  by_cases hx : x = 0
  · subst hx
    rw [roundBinary_zero]
    refine ⟨⟨0, _, by simp, le_rfl, by simp⟩, fun z _ => by simp, fun z _ h hz => ?_⟩
    simp only [sub_zero, abs_zero] at h
    exact absurd (abs_eq_zero.mp h.symm) hz
  have hunits := roundBinary_units prec emin x
  have hlast := lastPlace_zero prec emin x
  have hother := fun z => number_or_nearer hp (emin := emin) (x := x) (z := z) hx
  have hfirst := first_place hx (prec := prec) (emin := emin)
  unfold roundBinary
  generalize lastPlace prec emin x = l at *
  have hl := two_zpow_pos l
  have scale : ∀ k : Int, |(k : Rat) * 2 ^ l - x| = |(k : Rat) - x / 2 ^ l| * 2 ^ l := by
    intro k
    rw [← abs_of_pos hl, ← abs_mul, abs_of_pos hl, sub_mul, div_mul_cancel₀ _ hl.ne']
  have near : ∀ k : Int, |(nearestEven (x / 2 ^ l) : Rat) * 2 ^ l - x| ≤ |(k : Rat) * 2 ^ l - x| := by
    intro k
    rw [scale, scale]
    exact mul_le_mul_of_nonneg_right (nearestEven_nearest _ k) hl.le
  refine ⟨?_, ?_, ?_⟩
  · by_cases hlt : |nearestEven (x / 2 ^ l)| < 2 ^ prec
    · exact ⟨_, l, hlt, hlast, rfl⟩
    · have heq := le_antisymm hunits (not_lt.mp hlt)
      obtain ⟨q, rfl⟩ : ∃ q, prec = q + 1 := ⟨prec - 1, by omega⟩
      rcases (abs_eq (by positivity)).mp heq with h | h
      · refine ⟨2 ^ q, l + 1, ?_, by omega, ?_⟩
        · rw [abs_of_pos (by positivity)]
          exact pow_lt_pow_right₀ (by norm_num) (by omega)
        · rw [h, zpow_add₀ two_ne_zero]
          push_cast
          ring
      · refine ⟨-2 ^ q, l + 1, ?_, by omega, ?_⟩
        · rw [abs_neg, abs_of_pos (by positivity)]
          exact pow_lt_pow_right₀ (by norm_num) (by omega)
        · rw [h, zpow_add₀ two_ne_zero]
          push_cast
          ring
  · intro z hz
    obtain ⟨k, rfl | h⟩ := hother z hz
    · exact near k
    · exact (near k).trans h.le
  · intro z hz he hne
    obtain ⟨k, rfl | h⟩ := hother z hz
    · have hk : k ≠ nearestEven (x / 2 ^ l) := by
        rintro rfl
        exact hne rfl
      rw [scale, scale] at he
      refine ⟨_, l, nearestEven_tie hk (mul_right_cancel₀ hl.ne' he), hunits, ?_, hlast, rfl⟩
      rcases hlast.lt_or_eq with hlt | h
      · refine .inl ?_
        have h1 := hfirst hlt
        have hpow : (2 : Rat) ^ (l + ((prec : Int) - 1)) = ((2 ^ (prec - 1) : Int) : Rat) * 2 ^ l := by
          rw [show l + ((prec : Int) - 1) = ((prec - 1 : Nat) : Int) + l by omega, zpow_add₀ two_ne_zero,
            zpow_natCast]
          push_cast
          rfl
        rw [hpow] at h1
        rcases lt_or_gt_of_ne hx with hn | hn
        · rw [abs_of_neg hn] at h1
          refine le_trans ?_ (neg_le_abs _)
          have := nearestEven_le (q := x / 2 ^ l) (n := -2 ^ (prec - 1)) (by
            rw [div_le_iff₀ hl]
            push_cast at *
            linarith)
          omega
        · rw [abs_of_pos hn] at h1
          refine le_trans ?_ (le_abs_self _)
          exact le_nearestEven (by
            rw [le_div_iff₀ hl]
            exact h1)
      · exact .inr h.symm
    · exact absurd (he ▸ h) (not_lt.mpr (near k))

/-- `f64` arithmetic gives the nearest numbers. -/
theorem binary64_nearest (x : Rat) : NearestNumber 53 (-1022) x (Rounding.binary64.rnd x) :=
  binary_nearest (by norm_num) _ x

theorem binary32_nearest (x : Rat) : NearestNumber 24 (-126) x (Rounding.binary32.rnd x) :=
  binary_nearest (by norm_num) _ x

/-! ## Scores -/

theorem binary64_accurate : Accurate .binary64 (2 ^ (-53 : Int)) (2 ^ (-1075 : Int)) :=
  accurate_binary 53 (-1022) (by norm_num) (by norm_num)

theorem distance_le {isLower : Char → Bool} {w : Weights} {qs ns : List Nat} {text word : List Char}
    {d : Distance} (h : IsDistance isLower w qs text ns word d) :
    d.lcs ≤ qs.length ∧ d.prefixlen ≤ qs.length ∧ d.suffixlen ≤ qs.length := by
  refine ⟨?_, ?_, ?_⟩
  · rcases le_or_gt w.lcs 0 with h' | h'
    · rw [h.lcs0 h']; exact Nat.zero_le _
    · obtain ⟨z, hz, _, e⟩ := (h.lcs h').1
      rw [← e]
      exact hz.length_le
  · rcases le_or_gt w.pre 0 with h' | h'
    · rw [h.pre0 h']; exact Nat.zero_le _
    · exact (h.pre h').1.1
  · rcases le_or_gt w.suf 0 with h' | h'
    · rw [h.suf0 h']; exact Nat.zero_le _
    · exact (h.suf h').1.1

theorem distance_unique {isLower : Char → Bool} {w : Weights} {qs ns : List Nat} {text word : List Char}
    {d d' : Distance} (h : IsDistance isLower w qs text ns word d) (h' : IsDistance isLower w qs text ns word d') :
    d = d' := by
  have h1 := h.ld.unique h'.ld
  have h2 : d.lcs = d'.lcs := by
    rcases le_or_gt w.lcs 0 with hw | hw
    · rw [h.lcs0 hw, h'.lcs0 hw]
    · exact (h.lcs hw).unique (h'.lcs hw)
  have h3 : d.prefixlen = d'.prefixlen := by
    rcases le_or_gt w.pre 0 with hw | hw
    · rw [h.pre0 hw, h'.pre0 hw]
    · exact (h.pre hw).unique (h'.pre hw)
  have h4 : d.suffixlen = d'.suffixlen := by
    rcases le_or_gt w.suf 0 with hw | hw
    · rw [h.suf0 hw, h'.suf0 hw]
    · exact (h.suf hw).unique (h'.suf hw)
  have h5 : d.samecase = d'.samecase := by
    rcases le_or_gt w.case 0 with hw | hw
    · rw [h.case0 hw, h'.case0 hw]
    · obtain ⟨a, b, ha, hb, e⟩ := h.case hw
      obtain ⟨a', b', ha', hb', e'⟩ := h'.case hw
      obtain rfl := Option.some.inj (ha.symm.trans ha')
      obtain rfl := Option.some.inj (hb.symm.trans hb')
      exact Bool.eq_iff_iff.mpr (e.trans e'.symm)
  cases d; cases d'
  simp only at h1 h2 h3 h4 h5
  rw [h1, h2, h3, h4, h5]

/-- A text and a word have one exact score. -/
theorem exactScore_unique {x : TextExt} {alphabet : Alphabet} {w : Weights} {text word : List Char} {e e' : Rat}
    (h : ExactScore x alphabet w text word e) (h' : ExactScore x alphabet w text word e') : e = e' := by
  obtain ⟨qs, ns, d, h1, h2, h3, rfl⟩ := h
  obtain ⟨qs', ns', d', h1', h2', h3', rfl⟩ := h'
  obtain rfl := encodes_unique h1 h1'
  obtain rfl := encodes_unique h2 h2'
  rw [distance_unique h3 h3']

/-- The score of a word within reach. -/
theorem near_exact {x : TextExt} {alphabet : Alphabet} {w : Weights} {p : Params} {text word : List Char}
    {s : Rat} (h : Near x alphabet w p text word s) : ∃ e, ExactScore x alphabet w text word e := by
  obtain ⟨a, b, qs, ns, d, na, ne, h1, h2, h3, h4, h5, h6, h7, h8, h9, h10, h11⟩ := h
  exact ⟨_, qs, ns, d, h3, h4, h8, rfl⟩

theorem scoreOf_accurate {w : Weights} (hw : WeightsOk .binary64 w)
    (hsum : (2 : Rat) ^ (-1022 : Int) ≤ w.ld + w.lcs + w.pre + w.suf + w.case) {len : Nat} (hlen : 0 < len)
    {d : Distance} (h1 : d.lcs ≤ len) (h2 : d.prefixlen ≤ len) (h3 : d.suffixlen ≤ len) {s : Rat}
    (h : ScoreOf .binary64 w len d s) : |s - exactScore w len d| ≤ 2 ^ (-46 : Int) := by
  rw [scoreOf_iff.mp h]
  refine (similarity_close binary64_accurate (by norm_num) (by norm_num) (two_zpow_pos _).le
    (zpow_le_zpow_right₀ (by norm_num) (by norm_num)) hw ?_ hlen h1 h2 h3).trans (by norm_num)
  calc (2 : Rat) ^ (-1075 : Int) = 2 ^ (-53 : Int) * 2 ^ (-1022 : Int) := by
        rw [← zpow_add₀ two_ne_zero]; norm_num
    _ ≤ _ := mul_le_mul_of_nonneg_left hsum (two_zpow_pos _).le

/-- **C115**: in `f64` arithmetic the score of a word within reach is not farther than 2⁻⁴⁶ from the mean that it
stands for. -/
theorem score_accurate {x : TextExt} (hx : x.f64 = .binary64) {alphabet : Alphabet} {w : Weights}
    (hw : WeightsOk .binary64 w) (hsum : (2 : Rat) ^ (-1022 : Int) ≤ w.ld + w.lcs + w.pre + w.suf + w.case)
    {p : Params} {text word : List Char} (h0 : text ≠ []) {s : Rat} (h : Near x alphabet w p text word s) {e : Rat}
    (he : ExactScore x alphabet w text word e) : |s - e| ≤ 2 ^ (-46 : Int) := by
  obtain ⟨a, b, qs, ns, d, na, ne, h1, h2, h3, h4, h5, h6, h7, h8, h9, h10, h11⟩ := h
  have hqs : qs ≠ [] := by
    rintro rfl
    exact h0 (encodes_nil_text h3)
  rw [exactScore_unique he ⟨qs, ns, d, h3, h4, h8, rfl⟩]
  obtain ⟨i1, i2, i3⟩ := distance_le h8
  rw [hx] at h11
  exact scoreOf_accurate hw hsum (List.length_pos_iff.mpr hqs) i1 i2 i3 h11

theorem near_unique {x : TextExt} {alphabet : Alphabet} {w : Weights} {p : Params} {text word : List Char}
    {s s' : Rat} (h : Near x alphabet w p text word s) (h' : Near x alphabet w p text word s') : s = s' := by
  obtain ⟨a, b, qs, ns, d, na, ne, h1, h2, h3, h4, h5, h6, h7, h8, h9, h10, h11⟩ := h
  obtain ⟨a', b', qs', ns', d', na', ne', h1', h2', h3', h4', h5', h6', h7', h8', h9', h10', h11'⟩ := h'
  obtain rfl := encodes_unique h3 h3'
  obtain rfl := encodes_unique h4 h4'
  obtain rfl := distance_unique h8 h8'
  rw [scoreOf_iff.mp h11, scoreOf_iff.mp h11']

/-- **C115**: the words that a query lists are those whose mean reaches the threshold, as far as it is not within
2⁻⁴⁶ of it; and without frequency ranking none is listed after one whose mean is less by more than 2⁻⁴⁵. -/
theorem ranking_accurate {x : TextExt} (hx : x.f64 = .binary64) {alphabet : Alphabet}
    {as : List (List (List Char × Option Nat × VocabParams))} {w : Weights} (hw : WeightsOk .binary64 w)
    (hsum : (2 : Rat) ^ (-1022 : Int) ≤ w.ld + w.lcs + w.pre + w.suf + w.case) {p : Params} {text : List Char}
    (h0 : text ≠ []) {top : Nat} {hits : List Hit} (h : Ranked x alphabet as w p text top hits) :
    (∀ word s n e, ¬ Reserved word → Near x alphabet w p text word s → WordFreq as word n →
      ExactScore x alphabet w text word e → p.scoreThreshold + 2 ^ (-46 : Int) ≤ e → word ∈ hits.map Hit.word) ∧
    (∀ u ∈ hits, ∀ e, ExactScore x alphabet w text u.word e → p.scoreThreshold - 2 ^ (-46 : Int) ≤ e) ∧
    (p.freqWeight = 0 → hits.Pairwise fun u v => ∀ e e', ExactScore x alphabet w text u.word e →
      ExactScore x alphabet w text v.word e' → e' ≤ e + 2 ^ (-45 : Int)) := by
  have acc := fun {word s e} (h : Near x alphabet w p text word s) he =>
    abs_le.mp (score_accurate hx hw hsum h0 h (e := e) he)
  refine ⟨fun word s n e hr hn hf he ht => ?_, fun u hu e he => ?_, fun hfw => ?_⟩
  · refine List.mem_map.mpr ⟨⟨word, s, n⟩, (h.mem _).mpr ⟨hr, ⟨hn, ?_⟩, hf⟩, rfl⟩
    linarith [(acc hn he).1]
  · obtain ⟨_, ⟨hn, hs⟩, _⟩ := (h.mem u).mp hu
    linarith [(acc hn he).2]
  · refine h.order.imp_of_mem ?_
    intro u v hu hv huv e e' he he'
    obtain ⟨_, ⟨hn, _⟩, _⟩ := (h.mem u).mp hu
    obtain ⟨_, ⟨hn', _⟩, _⟩ := (h.mem v).mp hv
    have h1 := acc hn he
    have h2 := acc hn' he'
    have h3 : v.score ≤ u.score := by
      unfold Hit.NotWorse at huv
      rw [if_pos hfw] at huv
      rcases huv with h | h
      · exact h.le
      · exact h.1.le
    have h4 : (2 : Rat) ^ (-45 : Int) = 2 ^ (-46 : Int) + 2 ^ (-46 : Int) := by norm_num
    rw [h4]
    linarith [h1.1, h1.2, h2.1, h2.2]

/-- The relative frequency. -/
theorem relFreq_accurate {r : Rounding} {u η : Rat} (hacc : Accurate r u η) (hu' : u ≤ 1 / 1000)
    (hη : 0 ≤ η) (hηu : η ≤ u) {n top : Nat} (hn : n ≤ top) (htop : 0 < top) :
    0 ≤ r.rnd (r.rnd n / r.rnd top) ∧ r.rnd (r.rnd n / r.rnd top) ≤ 1 ∧
    |r.rnd (r.rnd n / r.rnd top) - n / top| ≤ 10 * u := by
  have ht : (1 : Rat) ≤ top := by exact_mod_cast htop
  have hnt : (n : Rat) ≤ top := by exact_mod_cast hn
  have hn0 : (0 : Rat) ≤ n := Nat.cast_nonneg n
  have hu : 0 ≤ u := hη.trans hηu
  have h1 := hacc n
  have h2 := hacc top
  rw [abs_of_nonneg hn0] at h1
  have ht0 : (0 : Rat) ≤ top := by linarith
  rw [abs_of_nonneg ht0] at h2
  have hm := r.mono _ _ hnt
  have hm1 : 1 ≤ r.rnd top := by
    have := r.mono _ _ ht
    rwa [r.one] at this
  have hm0 := rnd_nonneg r hn0
  have hq0 : 0 ≤ r.rnd n / r.rnd top := div_nonneg hm0 (by linarith)
  have hq1 : r.rnd n / r.rnd top ≤ 1 := (div_le_one (by linarith)).mpr hm
  have hut : u * top ≤ top / 1000 := by nlinarith
  have hbig : (top : Rat) ≤ 2 * r.rnd top := by
    have := (abs_le.mp h2).1
    linarith
  have h3 := quotient_close hn0 hnt (by linarith) hbig h1 h2
  have h4 : 2 * (u * n + η + (u * top + η)) / (top : Rat) ≤ 8 * u := by
    rw [div_le_iff₀ (by linarith)]
    have := mul_le_mul_of_nonneg_left hnt hu
    have := mul_le_mul_of_nonneg_left ht hu
    linarith
  have h5 := hacc (r.rnd n / r.rnd top)
  rw [abs_of_nonneg hq0] at h5
  have h6 : u * (r.rnd n / r.rnd top) ≤ u := by
    have := mul_le_mul_of_nonneg_left hq1 hu
    linarith
  refine ⟨rnd_nonneg r hq0, rnd_le_one r hq1, ?_⟩
  refine (abs_sub_le _ (r.rnd n / r.rnd top) _).trans ?_
  linarith

/-- **C115**: with frequency ranking, the score that counts is not farther than 2⁻⁴⁴ from the mean that it stands
for. -/
theorem overall_accurate {fw : Rat} (hfw : 0 < fw) {top : Nat} (htop : 0 < top) {u : Hit} (hn : u.freq ≤ top)
    {e : Rat} (he0 : 0 ≤ e) (he1 : e ≤ 1) (he : |u.score - e| ≤ 2 ^ (-46 : Int)) :
    |u.overall .binary64 fw top - exactOverall fw top e u.freq| ≤ 2 ^ (-44 : Int) := by
  have hacc := binary64_accurate
  have hηu : (2 : Rat) ^ (-1075 : Int) ≤ 2 ^ (-53 : Int) := zpow_le_zpow_right₀ (by norm_num) (by norm_num)
  have hη := (two_zpow_pos (-1075))
  have h46 : (2 : Rat) ^ (-46 : Int) = 128 * 2 ^ (-53 : Int) := by norm_num
  have h44 : (2 : Rat) ^ (-44 : Int) = 512 * 2 ^ (-53 : Int) := by norm_num
  have hu' : (2 : Rat) ^ (-53 : Int) ≤ 1 / 1000 := by norm_num
  rw [h46] at he
  rw [h44]
  generalize (2 : Rat) ^ (-53 : Int) = v at *
  generalize (2 : Rat) ^ (-1075 : Int) = η at *
  generalize Rounding.binary64 = r at *
  obtain ⟨f0, f1, f2⟩ := relFreq_accurate hacc hu' hη.le hηu hn htop
  have hv : 0 ≤ v := hη.le.trans hηu
  unfold Hit.overall exactOverall Hit.relFreq
  rw [if_neg hfw.ne']
  have ht : (1 : Rat) ≤ top := by exact_mod_cast htop
  have hx0 : (0 : Rat) ≤ u.freq / top := by positivity
  have hx1 : (u.freq : Rat) / top ≤ 1 := (div_le_one (by linarith)).mpr (by exact_mod_cast hn)
  generalize r.rnd (r.rnd u.freq / r.rnd top) = f at *
  generalize (u.freq : Rat) / top = g at *
  have hvf : 0 ≤ v * fw := mul_nonneg hv hfw.le
  have hp : |r.rnd (fw * f) - fw * g| ≤ 11 * (v * fw) + η := by
    have := part_close hacc hv hfw.le ⟨f0, f1⟩ f2
    linarith
  have hp0 : 0 ≤ r.rnd (fw * f) := rnd_nonneg r (mul_nonneg hfw.le f0)
  have hfg : fw * g ≤ fw := by nlinarith
  have hfg0 : 0 ≤ fw * g := mul_nonneg hfw.le hx0
  have hvf' : v * fw ≤ fw / 1000 := by nlinarith
  have s1 : |u.score + r.rnd (fw * f) - (e + fw * g)| ≤ 128 * v + (11 * (v * fw) + η) := by
    have : u.score + r.rnd (fw * f) - (e + fw * g) = (u.score - e) + (r.rnd (fw * f) - fw * g) := by ring
    rw [this]
    exact (abs_add_le _ _).trans (add_le_add he hp)
  have s2 : |u.score + r.rnd (fw * f)| ≤ 2 * (1 + fw) := by
    have := abs_add_le (u.score + r.rnd (fw * f) - (e + fw * g)) (e + fw * g)
    rw [sub_add_cancel, abs_of_nonneg (add_nonneg he0 hfg0)] at this
    linarith
  have s3 : |r.rnd (u.score + r.rnd (fw * f)) - (e + fw * g)| ≤ 132 * (v * (1 + fw)) := by
    have h1 := hacc (u.score + r.rnd (fw * f))
    have h2 := mul_le_mul_of_nonneg_left s2 hv
    refine (abs_sub_le _ (u.score + r.rnd (fw * f)) _).trans ?_
    linarith
  have s4 : |r.rnd (1 + fw) - (1 + fw)| ≤ 2 * (v * (1 + fw)) := by
    have h1 := hacc (1 + fw)
    rw [abs_of_nonneg (show (0 : Rat) ≤ 1 + fw by linarith)] at h1
    linarith
  have s5 : 1 + fw ≤ 2 * r.rnd (1 + fw) := by
    have := (abs_le.mp s4).1
    linarith
  have s6 := quotient_close (add_nonneg he0 hfg0) (by linarith) (by linarith) s5 s3 s4
  have s7 : 2 * (132 * (v * (1 + fw)) + 2 * (v * (1 + fw))) / (1 + fw) = 268 * v := by
    field_simp
    ring
  rw [s7] at s6
  have s8 : |r.rnd (u.score + r.rnd (fw * f)) / r.rnd (1 + fw)| ≤ 2 := by
    have h1 : (e + fw * g) / (1 + fw) ≤ 1 := (div_le_one (by linarith)).mpr (by linarith)
    have h2 : 0 ≤ (e + fw * g) / (1 + fw) := div_nonneg (add_nonneg he0 hfg0) (by linarith)
    have := abs_add_le (r.rnd (u.score + r.rnd (fw * f)) / r.rnd (1 + fw) - (e + fw * g) / (1 + fw))
      ((e + fw * g) / (1 + fw))
    rw [sub_add_cancel, abs_of_nonneg h2] at this
    linarith
  have s9 := hacc (r.rnd (u.score + r.rnd (fw * f)) / r.rnd (1 + fw))
  have s10 := mul_le_mul_of_nonneg_left s8 hv
  refine (abs_sub_le _ (r.rnd (u.score + r.rnd (fw * f)) / r.rnd (1 + fw)) _).trans ?_
  linarith

theorem exactScore_bounds {w : Weights} (h1 : 0 ≤ w.ld) (h2 : 0 ≤ w.lcs) (h3 : 0 ≤ w.pre) (h4 : 0 ≤ w.suf)
    (h5 : 0 ≤ w.case) (hs : 0 < w.ld + w.lcs + w.pre + w.suf + w.case) {len : Nat} (hlen : 0 < len) {d : Distance}
    (d1 : d.lcs ≤ len) (d2 : d.prefixlen ≤ len) (d3 : d.suffixlen ≤ len) :
    0 ≤ exactScore w len d ∧ exactScore w len d ≤ 1 := by
  have hl : (0 : Rat) < len := by exact_mod_cast hlen
  have ratio : ∀ k : Nat, k ≤ len → 0 ≤ (k : Rat) / len ∧ (k : Rat) / len ≤ 1 := fun k hk =>
    ⟨by positivity, (div_le_one hl).mpr (by exact_mod_cast hk)⟩
  have part : ∀ {a b : Rat}, 0 ≤ a → 0 ≤ b ∧ b ≤ 1 → 0 ≤ a * b ∧ a * b ≤ a := fun ha hb =>
    ⟨mul_nonneg ha hb.1, mul_le_of_le_one_right ha hb.2⟩
  have p1 := part (b := if d.ld ≤ len then 1 - (d.ld : Rat) / len else 0) h1 (by
    split
    · next h =>
      obtain ⟨a, b⟩ := ratio _ h
      exact ⟨by linarith, by linarith⟩
    · exact ⟨le_rfl, zero_le_one⟩)
  have p2 := part h2 (ratio _ d1)
  have p3 := part h3 (ratio _ d2)
  have p4 := part h4 (ratio _ d3)
  have p5 : 0 ≤ (if d.samecase then w.case else 0) ∧ (if d.samecase then w.case else 0) ≤ w.case := by
    split
    · exact ⟨h5, le_rfl⟩
    · exact ⟨le_rfl, h5⟩
  unfold exactScore
  exact ⟨div_nonneg (by linarith [p1.1, p2.1, p3.1, p4.1, p5.1]) hs.le,
    (div_le_one hs).mpr (by linarith [p1.2, p2.2, p3.2, p4.2, p5.2])⟩

/-- **C115**: with frequency ranking no word is listed after one whose mean (of score and frequency) is less by more
than 2⁻⁴³. -/
theorem frequency_ranking_accurate {x : TextExt} (hx : x.f64 = .binary64) {alphabet : Alphabet}
    {as : List (List (List Char × Option Nat × VocabParams))} {w : Weights} (hw : WeightsOk .binary64 w)
    (hsum : (2 : Rat) ^ (-1022 : Int) ≤ w.ld + w.lcs + w.pre + w.suf + w.case) {p : Params} {text : List Char}
    (h0 : text ≠ []) {top : Nat} (htop : 0 < top) {hits : List Hit}
    (h : Ranked x alphabet as w p text top hits) (hfw : 0 < p.freqWeight) :
    hits.Pairwise fun u v => ∀ e e', ExactScore x alphabet w text u.word e →
      ExactScore x alphabet w text v.word e' →
      exactOverall p.freqWeight top e' v.freq ≤ exactOverall p.freqWeight top e u.freq + 2 ^ (-43 : Int) := by
  have acc : ∀ u ∈ hits, ∀ e, ExactScore x alphabet w text u.word e →
      |u.overall .binary64 p.freqWeight top - exactOverall p.freqWeight top e u.freq| ≤ 2 ^ (-44 : Int) := by
    intro u hu e he
    obtain ⟨hr, ⟨hn, _⟩, hf⟩ := (h.mem u).mp hu
    have hle : u.freq ≤ top := (h.greatest (List.ne_nil_of_mem hu)).2 ⟨u.word, u.score, hr, hn, hf⟩
    have hb : 0 ≤ e ∧ e ≤ 1 := by
      obtain ⟨qs, ns, d, e1, e2, e3, rfl⟩ := he
      obtain ⟨i1, i2, i3⟩ := distance_le e3
      have hqs : qs ≠ [] := by
        rintro rfl
        exact h0 (encodes_nil_text e1)
      exact exactScore_bounds hw.ld.1 hw.lcs.1 hw.pre.1 hw.suf.1 hw.case.1 ((two_zpow_pos _).trans_le hsum)
        (List.length_pos_iff.mpr hqs) i1 i2 i3
    exact overall_accurate hfw htop hle hb.1 hb.2 (score_accurate hx hw hsum h0 hn he)
  refine h.order.imp_of_mem ?_
  intro u v hu hv huv e e' he he'
  have h1 := abs_le.mp (acc u hu e he)
  have h2 := abs_le.mp (acc v hv e' he')
  unfold Hit.NotWorse at huv
  rw [if_neg hfw.ne', hx] at huv
  have h4 : (2 : Rat) ^ (-43 : Int) = 2 ^ (-44 : Int) + 2 ^ (-44 : Int) := by norm_num
  rw [h4]
  linarith [h1.1, h1.2, h2.1, h2.2]

/-! ## Examples -/

/-- 1/10 in `f32`, 1/3 in `f64`; and 2²⁴ + 1 lies between two numbers of `f32`, of which the even one is taken. -/
example : Rounding.binary32.rnd (1 / 10) = 13421773 / 134217728 ∧
    Rounding.binary64.rnd (1 / 3) = 6004799503160661 / 18014398509481984 ∧
    Rounding.binary32.rnd 16777217 = 16777216 ∧ Rounding.binary32.rnd 16777219 = 16777220 ∧
    Rounding.binary64.rnd (3 / 2 * 2 ^ (-1074 : Int)) = 2 ^ (-1073 : Int) := by decide +kernel

/-- The default weights. -/
theorem exWeights64 : WeightsOk .binary64 ⟨1 / 2, 1 / 8, 1 / 8, 1 / 8, 1 / 8⟩ := by
  constructor <;> decide +kernel

/-- One substitution in a text of three symbols: the score is not the mean, but next to it. -/
example : ScoreOf .binary64 ⟨1 / 2, 1 / 8, 1 / 8, 1 / 8, 1 / 8⟩ 3 ⟨1, 1, 1, 1, true⟩ (1313549891316395 / 2 ^ 51) ∧
    exactScore ⟨1 / 2, 1 / 8, 1 / 8, 1 / 8, 1 / 8⟩ 3 ⟨1, 1, 1, 1, true⟩ = 7 / 12 ∧
    (1313549891316395 / 2 ^ 51 : Rat) ≠ 7 / 12 ∧
    |(1313549891316395 / 2 ^ 51 : Rat) - 7 / 12| ≤ 2 ^ (-46 : Int) := by
  have h : ScoreOf .binary64 ⟨1 / 2, 1 / 8, 1 / 8, 1 / 8, 1 / 8⟩ 3 ⟨1, 1, 1, 1, true⟩
      (1313549891316395 / 2 ^ 51) := scoreOf_iff.mpr (by decide +kernel)
  have e : exactScore ⟨1 / 2, 1 / 8, 1 / 8, 1 / 8, 1 / 8⟩ 3 ⟨1, 1, 1, 1, true⟩ = 7 / 12 := by decide +kernel
  refine ⟨h, e, by decide +kernel, ?_⟩
  rw [← e]
  exact scoreOf_accurate exWeights64 (by decide +kernel) (by decide) (by decide) (by decide) (by decide) h

/-- The surroundings of the examples, with IEEE 754 arithmetic. -/
def exText64 : TextExt := { exText with f32 := .binary32, f64 := .binary64 }

def exParams64 (fw : Rat) : Params :=
  { exParams with maxEditDistance := .ratioWithLimit 1 2, freqWeight := fw }

theorem exShort64 (fw : Rat) {l : List Char} (h : l.length ≤ 4) :
    ShortEnough exText64 [["a".toList, "A".toList], ["b".toList]] (exParams64 fw) l := by
  obtain ⟨qs, hqs⟩ := encodes_exists (alphabet := [["a".toList, "A".toList], ["b".toList]])
    (by unfold NoEmpty; decide) 3 l
  have hlen := encodes_length hqs
  obtain ⟨n, hn⟩ := allowed_exists (r := exText64.f32) (len := qs.length)
    (t := (exParams64 fw).maxAnagramDistance) (show 3 ≤ 255 by decide)
  refine ⟨qs, n, hqs, hn, ?_⟩
  have : n = 0 ∨ n ≤ 3 ∧ _ := hn.1
  omega

/-- Words are listed for a text, without and with frequency ranking. -/
theorem exRanked64 (fw : Rat) (hfw : 0 ≤ fw) {text : List Char} (h0 : text ≠ []) (h4 : text.length ≤ 4) : ∃ L top hits res,
    exLoadR.load ⟨['a'], [(['l'], 3)], [], [], [], [], []⟩ exOrders = .ok L ∧
    Ranked exText64 L.vm.alphabet exAddedS ⟨1 / 2, 1 / 8, 1 / 8, 1 / 8, 1 / 8⟩
      (exParams64 fw) text top hits ∧
    L.vm.findVariants exText64.toExt exConfig (exParams64 fw) text = .ok res := by
  have hadds : AddsAll exLoadR 0 (sourcesOf ⟨['a'], [(['l'], 3)], [], [], [], [], []⟩) exAddedS := by
    obtain ⟨_, hn, hl⟩ := exUsableS.files
    have h1 := hn.resources
    have h2 := hn.lm
    have := hl.words
    unfold sourcesOf at this
    rw [h1, h2] at this
    exact this
  obtain ⟨top, hits, res, h1, h2, h3⟩ := similar_words_found (x := exLoadR)
    (args := ⟨['a'], [(['l'], 3)], [], [], [], [], []⟩) (o := exOrders) rfl (by decide)
    (by
      intro s hs
      have hs : s ∈ [Source.lexicon ['l']] := hs
      exact ⟨['l'], List.mem_singleton.mp hs⟩)
    hadds (by decide) (by decide) exText64 exConfig (exParams64 fw) (by decide +kernel) rfl rfl
    hfw (show 3 ≤ 255 by decide)
    (show 2 ≤ 255 by decide) text h0 (exShort64 _ h4)
  exact ⟨_, top, hits, res, rfl, h1, h2⟩

example : ∃ L top hits, exLoadR.load ⟨['a'], [(['l'], 3)], [], [], [], [], []⟩ exOrders = .ok L ∧
    Ranked exText64 L.vm.alphabet exAddedS ⟨1 / 2, 1 / 8, 1 / 8, 1 / 8, 1 / 8⟩ (exParams64 0) "aba".toList top
      hits ∧
    hits.Pairwise fun u v => ∀ e e',
      ExactScore exText64 L.vm.alphabet ⟨1 / 2, 1 / 8, 1 / 8, 1 / 8, 1 / 8⟩ "aba".toList u.word e →
      ExactScore exText64 L.vm.alphabet ⟨1 / 2, 1 / 8, 1 / 8, 1 / 8, 1 / 8⟩ "aba".toList v.word e' →
      e' ≤ e + 2 ^ (-45 : Int) := by
  obtain ⟨L, top, hits, res, h1, h2, _⟩ := exRanked64 0 le_rfl (text := "aba".toList) (by decide) (by decide)
  exact ⟨L, top, hits, h1, h2,
    (ranking_accurate rfl exWeights64 (by decide +kernel) (by decide) h2).2.2 rfl⟩

example : ∃ L top hits, exLoadR.load ⟨['a'], [(['l'], 3)], [], [], [], [], []⟩ exOrders = .ok L ∧
    Ranked exText64 L.vm.alphabet exAddedS ⟨1 / 2, 1 / 8, 1 / 8, 1 / 8, 1 / 8⟩ (exParams64 (1 / 4)) "aba".toList
      top hits ∧
    hits.Pairwise fun u v => ∀ e e',
      ExactScore exText64 L.vm.alphabet ⟨1 / 2, 1 / 8, 1 / 8, 1 / 8, 1 / 8⟩ "aba".toList u.word e →
      ExactScore exText64 L.vm.alphabet ⟨1 / 2, 1 / 8, 1 / 8, 1 / 8, 1 / 8⟩ "aba".toList v.word e' →
      exactOverall (exParams64 (1 / 4)).freqWeight top e' v.freq ≤
        exactOverall (exParams64 (1 / 4)).freqWeight top e u.freq + 2 ^ (-43 : Int) := by
  obtain ⟨L, top, hits, res, h1, h2, _⟩ := exRanked64 (1 / 4) (by norm_num) (text := "aba".toList) (by decide)
    (by decide)
  refine ⟨L, top, hits, h1, h2, ?_⟩
  by_cases hne : hits = []
  · rw [hne]
    exact .nil
  · refine frequency_ranking_accurate rfl exWeights64 (by decide +kernel) (by decide) ?_ h2
      (by decide +kernel)
    obtain ⟨t, s, _, _, ⟨a, ha, _, e⟩, _⟩ := (h2.greatest hne).1
    rw [← e]
    have hall : ∀ a ∈ exAddedS.flatten, 0 < a.2.1.getD 1 := by decide
    exact hall a ha

/-- What is found for `aba`, with its scores: without frequency ranking; and with it, when the second word is cut
off. -/
example : ∃ L, exLoadR.load ⟨['a'], [(['l'], 3)], [], [], [], [], []⟩ exOrders = .ok L ∧
    (L.vm.findVariants exText64.toExt exConfig (exParams64 0) "aba".toList).map
      (fun res => res.map fun r => (r.vocabId, r.distScore, r.freqScore)) =
        .ok [(3, 5 / 8, 1), (4, 3002399751580331 / 2 ^ 53, 6004799503160661 / 2 ^ 54)] ∧
    (L.vm.findVariants exText64.toExt exConfig (exParams64 (1 / 4)) "aba".toList).map
      (fun res => res.map fun r => (r.vocabId, r.score .binary64 (1 / 4))) = .ok [(3, 3152519739159347 / 2 ^ 52)] :=
  ⟨_, rfl, by decide +kernel, by decide +kernel⟩

end Verif.Props
