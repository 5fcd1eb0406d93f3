import Verif.Spec.Decimal
import Verif.Props.Similar
import Verif.Props.Options
import Verif.Props.Reckon
import Verif.Props.SimilarRuns
import Verif.Props.DividedAll
import Verif.Model.Python

/-!
# Ratios that are written as decimals
-/
namespace Verif.Props

open Verif.Model Verif.Spec Verif.Lemmas

theorem binary32_rel {y : Rat} (hy : 1 / 1000000 ≤ |y|) :
    |Rounding.binary32.rnd y - y| ≤ |y| * 2 ^ (-24 : Int) := by
  refine (roundBinary_close 24 (-126) y).trans (max_le le_rfl ?_)
  refine le_trans ?_ (mul_le_mul_of_nonneg_right hy (two_zpow_pos _).le)
  norm_num

/-- The products that are whole numbers. -/
theorem whole_products : ∀ L : Fin 256, ∀ N : Fin 53, N.val ≤ L.val → L.val ∣ 100000 * N.val →
    (N.val : Rat) ≤ Rounding.binary32.rnd (L.val * Rounding.binary32.rnd (N.val / L.val)) := by
  decide +kernel

/-- The same for numbers that are rounded to `f64` first. -/
theorem whole_rounded_twice : ∀ L : Fin 256, ∀ N : Fin 53, N.val ≤ L.val → L.val ∣ 100000 * N.val →
    Rounding.binary32.rnd (Rounding.binary64.rnd (N.val / L.val)) = Rounding.binary32.rnd (N.val / L.val) := by
  decide +kernel

/-- A product of a length and a ratio with at most five places is as good as the exact one. -/
theorem product_iff {L N k : Nat} (hL : L ≤ 255) (hN : N ≤ 52) (hk : k ≤ 100000) {x : Rat}
    (hx : |x - k / 100000| ≤ k / 100000 * (1 / 16500000))
    (hw : L * k = N * 100000 → (N : Rat) ≤ Rounding.binary32.rnd (L * x)) :
    (N : Rat) ≤ Rounding.binary32.rnd (Rounding.binary32.rnd L * x) ↔ N * 100000 ≤ L * k := by
  have hLr : Rounding.binary32.rnd L = L := by
    have := binary32_small L (by rw [abs_of_nonneg (by positivity)]; norm_num; omega)
    exact_mod_cast this
  rw [hLr]
  rcases Nat.eq_zero_or_pos L with rfl | hL0
  · simp only [Nat.cast_zero, zero_mul, Rounding.binary32.zero]
    constructor
    · intro h
      have : N = 0 := by exact_mod_cast le_antisymm h (by positivity)
      omega
    · intro h
      have : N = 0 := by omega
      simp [this]
  rcases Nat.eq_zero_or_pos k with rfl | hk0
  · have hx0 : x = 0 := by simpa using hx
    simp only [hx0, mul_zero, Rounding.binary32.zero]
    constructor
    · intro h
      have : N = 0 := by exact_mod_cast le_antisymm h (by positivity)
      omega
    · intro h
      have : N = 0 := by omega
      simp [this]
  have hq : (1 : Rat) / 100000 ≤ (k : Rat) / 100000 := by
    have : (1 : Rat) ≤ k := by exact_mod_cast hk0
    linarith
  have hL1 : (1 : Rat) ≤ L := by exact_mod_cast hL0
  have hN1 : (N : Rat) ≤ 52 := by exact_mod_cast hN
  have hu : (2 : Rat) ^ (-24 : Int) = 1 / 16777216 := by norm_num
  have hxb := abs_le.mp hx
  have hv : (L : Rat) * (k / 100000) = (L * k : Nat) / 100000 := by push_cast; ring
  have hy1 : (L : Rat) * x ≤ L * (k / 100000) * (1 + 1 / 16500000) := by
    rw [mul_assoc]
    exact mul_le_mul_of_nonneg_left (by linarith) (by linarith)
  have hy2 : (L : Rat) * (k / 100000) * (1 - 1 / 16500000) ≤ L * x := by
    rw [mul_assoc]
    exact mul_le_mul_of_nonneg_left (by linarith) (by linarith)
  have hv0 : (1 : Rat) / 100000 ≤ (L * k : Nat) / 100000 := by
    have : (1 : Rat) ≤ (L * k : Nat) := by exact_mod_cast Nat.mul_pos hL0 hk0
    linarith
  rw [hv] at hy1 hy2
  have hp := binary32_rel (y := (L : Rat) * x) (by rw [abs_of_nonneg (by linarith)]; linarith)
  rw [abs_of_nonneg (a := (L : Rat) * x) (by linarith), hu] at hp
  have hpb := abs_le.mp hp
  constructor
  · intro h
    by_contra hlt
    have h1 : (L * k : Nat) + (1 : Rat) ≤ N * 100000 := by exact_mod_cast not_le.mp hlt
    linarith
  · intro h
    rcases h.lt_or_eq with h | h
    · have h1 : (N : Rat) * 100000 + 1 ≤ (L * k : Nat) := by exact_mod_cast h
      linarith
    · exact hw h.symm

/-- The numbers that a ratio is read as. -/
theorem read_close {k : Nat} {x : Rat} (h : x = Rounding.binary32.rnd (k / 100000) ∨
    x = Rounding.binary32.rnd (Rounding.binary64.rnd (k / 100000))) :
    |x - k / 100000| ≤ k / 100000 * (1 / 16500000) := by
  rcases Nat.eq_zero_or_pos k with rfl | hk
  · have hx0 : x = 0 := by
      simpa [Rounding.binary32.zero, Rounding.binary64.zero] using h
    simp [hx0]
  have hq : (1 : Rat) / 100000 ≤ (k : Rat) / 100000 := by
    have : (1 : Rat) ≤ k := by exact_mod_cast hk
    linarith
  generalize (k : Rat) / 100000 = q at *
  have hu : (2 : Rat) ^ (-24 : Int) = 1 / 16777216 := by norm_num
  rcases h with rfl | rfl
  · have hx := binary32_rel (y := q) (by rw [abs_of_nonneg (by linarith)]; linarith)
    rw [abs_of_nonneg (a := q) (by linarith), hu] at hx
    linarith
  · have h1 : |Rounding.binary64.rnd q - q| ≤ q * (1 / 2 ^ 53) := by
      refine (roundBinary_close 53 (-1022) q).trans (max_le ?_ ?_)
      · rw [abs_of_nonneg (by linarith)]
        refine mul_le_mul_of_nonneg_left ?_ (by linarith)
        norm_num
      · refine le_trans ?_ (mul_le_mul_of_nonneg_right hq (by norm_num))
        rw [show ((-1022 : Int) - (53 : Nat)) = -1075 by norm_num]
        refine le_trans (zpow_le_zpow_right₀ (by norm_num : (1 : Rat) ≤ 2) (by norm_num : (-1075 : Int) ≤ -100)) ?_
        norm_num
    have hb := abs_le.mp h1
    generalize Rounding.binary64.rnd q = z at *
    have hz : (1 : Rat) / 1000000 ≤ z := by
      have := hb.1
      norm_num at this
      linarith
    have hx := binary32_rel (y := z) (by rw [abs_of_nonneg (by linarith)]; linarith)
    rw [abs_of_nonneg (a := z) (by linarith), hu] at hx
    have hxb := abs_le.mp hx
    norm_num at hb
    rw [abs_le]
    constructor <;> linarith

theorem decimal_nat {s : List Char} {n : Nat} {q : Rat} (h : DecimalText s n q) (hn : n ≤ 5) (hq : q ≤ 1) :
    ∃ k : Nat, k ≤ 100000 ∧ q = k / 100000 := by
  obtain ⟨ds, es, _, _, _, _, rfl⟩ := h
  generalize Nat.ofDigits 10 (ds ++ es).reverse = m at *
  have e : (m : Rat) / 10 ^ n = (m * 10 ^ (5 - n) : Nat) / 100000 := by
    rw [div_eq_div_iff (by positivity) (by norm_num)]
    push_cast
    rw [mul_assoc, ← pow_add, show 5 - n + n = 5 by omega]
    norm_num
  refine ⟨_, ?_, e⟩
  rw [e, div_le_one (by norm_num)] at hq
  exact_mod_cast hq

/-- The distance that a ratio stands for, with `f32` and by exact reckoning. -/
theorem allowed_read {k : Nat} (hk : k ≤ 100000) {x : Rat} (h : x = Rounding.binary32.rnd (k / 100000) ∨
    x = Rounding.binary32.rnd (Rounding.binary64.rnd (k / 100000))) {L : Nat} (hL : L ≤ 255) {N : Nat} (hN : N ≤ 52) :
    (N : Rat) ≤ Rounding.binary32.rnd (Rounding.binary32.rnd L * x) ↔
      (N : Rat) ≤ Rounding.exact.rnd (Rounding.exact.rnd L * (k / 100000)) := by
  rw [product_iff hL hN hk (read_close h) ?_]
  · show _ ↔ (N : Rat) ≤ L * (k / 100000)
    rw [← mul_div_assoc, le_div_iff₀ (by norm_num)]
    exact_mod_cast Iff.rfl
  · intro e
    rcases Nat.eq_zero_or_pos L with rfl | hL0
    · have : N = 0 := by omega
      simp [this, Rounding.binary32.zero]
    have hle : N ≤ L := by
      have : L * k ≤ L * 100000 := Nat.mul_le_mul_left L hk
      omega
    have hd : L ∣ 100000 * N := ⟨k, by omega⟩
    have hq : (k : Rat) / 100000 = N / L := by
      rw [div_eq_div_iff (by norm_num) (by positivity)]
      have : (L : Rat) * k = N * 100000 := by exact_mod_cast e
      linarith
    have h1 := whole_products ⟨L, by omega⟩ ⟨N, by omega⟩ hle hd
    have h2 := whole_rounded_twice ⟨L, by omega⟩ ⟨N, by omega⟩ hle hd
    rw [hq] at h
    simp only at h1 h2
    rcases h with rfl | rfl
    · exact h1
    · rw [h2]
      exact h1

/-- A threshold as it is read for one that is meant. -/
inductive ReadFor : DistanceThreshold → DistanceThreshold → Prop
  | absolute (n) : ReadFor (.absolute n) (.absolute n)
  | ratio {k x} : k ≤ 100000 → x = Rounding.binary32.rnd ((k : Nat) / 100000) ∨
      x = Rounding.binary32.rnd (Rounding.binary64.rnd (k / 100000)) → ReadFor (.ratio x) (.ratio (k / 100000))
  | limit {k x l} : k ≤ 100000 → x = Rounding.binary32.rnd ((k : Nat) / 100000) ∨
      x = Rounding.binary32.rnd (Rounding.binary64.rnd (k / 100000)) → l ≤ 52 →
      ReadFor (.ratioWithLimit x l) (.ratioWithLimit (k / 100000) l)

theorem allowed_exact {t t' : DistanceThreshold} (h : ReadFor t t') {L : Nat} (hL : L ≤ 255) {n : Nat} :
    Allowed .binary32 L t n ↔ Allowed .exact L t' n := by
  cases h with
  | absolute => exact Iff.rfl
  | ratio hk hx =>
    unfold Allowed
    have : ∀ N : Nat, (N = 0 ∨ N ≤ 12 ∧ (N : Rat) ≤ Rounding.binary32.rnd (Rounding.binary32.rnd L * _)) ↔
        (N = 0 ∨ N ≤ 12 ∧ (N : Rat) ≤ Rounding.exact.rnd (Rounding.exact.rnd L * _)) := fun N =>
      or_congr Iff.rfl (and_congr_right fun hN => allowed_read hk hx hL (hN.trans (by norm_num)))
    simp only [this]
  | limit hk hx hl =>
    unfold Allowed
    have : ∀ N : Nat, (N = 0 ∨ N ≤ _ ∧ (N : Rat) ≤ Rounding.binary32.rnd (Rounding.binary32.rnd L * _)) ↔
        (N = 0 ∨ N ≤ _ ∧ (N : Rat) ≤ Rounding.exact.rnd (Rounding.exact.rnd L * _)) := fun N =>
      or_congr Iff.rfl (and_congr_right fun hN => allowed_read hk hx hL (hN.trans hl))
    simp only [this]

theorem near_exactly {x : TextExt} (hx : x.f32 = .binary32) {alphabet : Alphabet} {w : Weights} {p : Params}
    {ta te : DistanceThreshold} (ha : ReadFor p.maxAnagramDistance ta) (he : ReadFor p.maxEditDistance te)
    {text : List Char} (hs : ∀ qs, Encodes alphabet (alphabet.length + 1) text qs → qs.length ≤ 255)
    {word : List Char} {s : Rat} :
    Near x alphabet w p text word s ↔ Near (exactly x) alphabet w (withThresholds p ta te) text word s := by
  unfold Near
  constructor
  · rintro ⟨a, b, qs, ns, d, na, ne, h1, h2, h3, h4, h5, h6, h7, h8, h9, h10, h11⟩
    rw [hx] at h5 h9
    exact ⟨a, b, qs, ns, d, na, ne, h1, h2, h3, h4, (allowed_exact ha (hs qs h3)).mp h5, h6, h7, h8,
      (allowed_exact he (hs qs h3)).mp h9, h10, h11⟩
  · rintro ⟨a, b, qs, ns, d, na, ne, h1, h2, h3, h4, h5, h6, h7, h8, h9, h10, h11⟩
    refine ⟨a, b, qs, ns, d, na, ne, h1, h2, h3, h4, ?_, h6, h7, h8, ?_, h10, h11⟩
    · rw [hx]
      exact (allowed_exact ha (hs qs h3)).mpr h5
    · rw [hx]
      exact (allowed_exact he (hs qs h3)).mpr h9

theorem ranked_exactly {x : TextExt} (hx : x.f32 = .binary32) {alphabet : Alphabet}
    {as : List (List (List Char × Option Nat × VocabParams))} {w : Weights} {p : Params}
    {ta te : DistanceThreshold} (ha : ReadFor p.maxAnagramDistance ta) (he : ReadFor p.maxEditDistance te)
    {text : List Char} (hs : ∀ qs, Encodes alphabet (alphabet.length + 1) text qs → qs.length ≤ 255)
    {top : Nat} {hits : List Hit} (h : Ranked x alphabet as w p text top hits) :
    Ranked (exactly x) alphabet as w (withThresholds p ta te) text top hits := by
  have hn := fun word s => near_exactly (w := w) hx ha he hs (word := word) (s := s)
  refine ⟨h.nodup, fun u => ?_, fun h0 => ?_, h.order⟩
  · rw [h.mem]
    unfold Similar
    rw [hn]
    exact Iff.rfl
  · have := h.greatest h0
    simp only [hn] at this
    exact this

theorem inForce_unique {c : CommandLine} (hc : Accepted c) {o : OptName} (ho : o ∉ repeatable) {d v v' : List Char}
    (h : InForce c o d v) (h' : InForce c o d v') : v = v' := by
  rcases h with h | ⟨h, rfl⟩ <;> rcases h' with h' | ⟨h', rfl⟩
  · exact hc.2 o ho _ _ h h'
  · exact absurd ⟨_, h⟩ h'
  · exact absurd ⟨_, h'⟩ h
  · rfl

theorem thresholdText_unique {parse : List Char → Option EFloat} (hf : ∀ s, ';' ∈ s → parse s = none) {s : List Char}
    {t t' : ParsedThreshold} (h : ThresholdText parse s t) (h' : ThresholdText parse s t') : t = t' := by
  rw [← thresholdText_iff parse hf] at h h'
  exact Option.some.inj (h.symm.trans h')

theorem decimal_no_number {s : List Char} {n : Nat} {q : Rat} (h : DecimalText s n q) (m k : Nat) :
    ¬ NumberText m s k := by
  rintro ⟨fs, _, hf, hs, _⟩
  obtain ⟨ds, es, _, _, _, rfl, _⟩ := h
  have hd : ∀ d, d < 10 → Nat.digitChar d ≠ '.' := by decide
  have hm : '.' ∉ fs.map Nat.digitChar := by
    intro hm
    obtain ⟨d, h1, h2⟩ := List.mem_map.mp hm
    exact hd d (hf d h1) h2
  rcases hs with hs | hs
  · exact hm (by rw [← hs]; simp)
  · have : '.' ∈ '+' :: fs.map Nat.digitChar := by rw [← hs]; simp
    rcases List.mem_cons.mp this with h | h
    · exact absurd h (by decide)
    · exact hm h

/-- What is read for a threshold that is meant. -/
theorem meant_read {parse : List Char → Option EFloat} (hf : ∀ s, ';' ∈ s → parse s = none)
    (hr : ReadsDecimals .binary32 parse) {s : List Char} {t t' : DistanceThreshold} (h : ThresholdMeant s t')
    (ht : ThresholdText parse s (parsedAs t)) : ReadFor t t' := by
  cases h with
  | absolute h =>
    have := thresholdText_unique hf ht (.absolute h)
    cases t <;> simp only [parsedAs] at this <;> cases this
    exact .absolute _
  | ratio h hn hq =>
    obtain ⟨k, hk, rfl⟩ := decimal_nat h hn hq
    have h0 : (0 : Rat) ≤ k / 100000 := by positivity
    have := thresholdText_unique hf ht (.ratio (fun m => decimal_no_number h _ m) (hr _ _ _ h hq)
      (by rw [← Rounding.binary32.zero]; exact Rounding.binary32.mono _ _ h0)
      (by rw [← Rounding.binary32.one]; exact Rounding.binary32.mono _ _ hq))
    cases t <;> simp only [parsedAs] at this <;> cases this
    exact .ratio hk (.inl rfl)
  | limit h hn hq hl =>
    obtain ⟨k, hk, rfl⟩ := decimal_nat h hn hq
    obtain ⟨ds, h1, h2, h3, h4, h5⟩ := hl
    have := thresholdText_unique hf ht (.limit (hr _ _ _ h hq) ⟨ds, h1, h2, h3, h4, h5.trans (by norm_num)⟩)
    cases t <;> simp only [parsedAs] at this <;> cases this
    exact .limit hk (.inl rfl) h5

/-- **C119**: thresholds that are written as decimals are not affected by rounding.  With numbers, or with decimals
of up to five places, as thresholds, a query finds the words that are within the thresholds by exact reckoning,
although ratios and distances are calculated in `f32`. -/
theorem query_thresholds_exact {x : ToolExt} {c : CommandLine} {files : List (List Char)} {alphabet : Alphabet}
    {as : List (List (List Char × Option Nat × VocabParams))} {w : Weights} {p : Params}
    {lines : List (List Char)} (h : PlainQuery x c files alphabet as w p lines) (hx : x.text.f32 = .binary32)
    (hr : ReadsDecimals .binary32 x.parseF32) {va ve : List Char} {ta te : DistanceThreshold}
    (ha : InForce c .maxAnagramDistance "3".toList va) (ha' : ThresholdMeant va ta)
    (he : InForce c .maxEditDistance "2".toList ve) (he' : ThresholdMeant ve te) :
    ∃ rs : List (List Char × Nat × List Hit), rs.map Prod.fst = lines ∧
      (∀ r ∈ rs, Ranked (exactly x.text) alphabet as w (withThresholds p ta te) r.1 r.2.1 r.2.2) ∧
      x.main c files = .ok (.output (rs.flatMap fun r => printed x r.1
        ((shown x.text.f64 p.maxMatches p.cutoffThreshold (Hit.overall x.text.f64 p.freqWeight r.2.1)
          Hit.score r.2.2).map fun u => (u.word, u.overall x.text.f64 p.freqWeight r.2.1))) []) := by
  obtain ⟨rs, h1, h2, h3⟩ := plain_query h
  refine ⟨rs, h1, fun r hr' => ?_, h3⟩
  have hl : r.1 ∈ lines := by rw [← h1]; exact List.mem_map_of_mem hr'
  obtain ⟨q, inputs, hn, rfl, _⟩ := h.numbers
  obtain ⟨q', hq, _, hqn⟩ := hn.params
  have fa : ReadFor q.variant.maxAnagramDistance ta := by
    obtain ⟨v, hv, ht⟩ := hq.anagram
    obtain rfl := inForce_unique h.accepted (by decide) hv ha
    rw [hqn.anagram] at ht
    exact meant_read h.semicolon hr ha' ht
  have fe : ReadFor q.variant.maxEditDistance te := by
    obtain ⟨v, hv, ht⟩ := hq.edit
    obtain rfl := inForce_unique h.accepted (by decide) hv he
    rw [hqn.edit] at ht
    exact meant_read h.semicolon hr he' ht
  refine ranked_exactly hx fa fe (fun qs hqs => ?_) (h2 r hr')
  obtain ⟨_, qs', n, i1, _, i2⟩ := h.short r.1 hl
  obtain rfl := encodes_unique i1 hqs
  omega

/-- **C119**, the distances: what is allowed for a text of up to 255 symbols is the greatest number that is within
the limit and within the exact product. -/
theorem threshold_exact {parse : List Char → Option EFloat} (hf : ∀ s, ';' ∈ s → parse s = none)
    (hr : ReadsDecimals .binary32 parse) {s : List Char} {t' : DistanceThreshold} (h : ThresholdMeant s t') :
    ∃ t, parseThreshold parse s = some (parsedAs t) ∧
      ∀ len ≤ 255, ∀ n, Allowed .binary32 len t n ↔ Allowed .exact len t' n := by
  have key : ∃ t, ThresholdText parse s (parsedAs t) := by
    cases h with
    | absolute h => exact ⟨.absolute _, .absolute h⟩
    | ratio h hn hq =>
      obtain ⟨k, hk, rfl⟩ := decimal_nat h hn hq
      exact ⟨.ratio _, .ratio (fun m => decimal_no_number h _ m) (hr _ _ _ h hq)
        (by rw [← Rounding.binary32.zero]; exact Rounding.binary32.mono _ _ (by positivity))
        (by rw [← Rounding.binary32.one]; exact Rounding.binary32.mono _ _ hq)⟩
    | limit h hn hq hl =>
      obtain ⟨ds, h1, h2, h3, h4, h5⟩ := hl
      exact ⟨.ratioWithLimit _ _, .limit (hr _ _ _ h hq) ⟨ds, h1, h2, h3, h4, h5.trans (by norm_num)⟩⟩
  obtain ⟨t, ht⟩ := key
  exact ⟨t, (thresholdText_iff parse hf _ _).mpr ht, fun len hL n => allowed_exact (meant_read hf hr h ht) hL⟩

/-- **C119** in Python, where a decimal is rounded to `f64` first. -/
theorem python_threshold_exact (parse : List Char → Option EFloat) {s : List Char} {n : Nat} {q : Rat}
    (h : DecimalText s n q) (hn : n ≤ 5) (hq : q ≤ 1) :
    ∃ y, extractThreshold .binary32 .binary64 parse (.float (.fin (Rounding.binary64.rnd q))) = some (.ratio (.fin y)) ∧
      (∀ l : Nat, l ≤ 255 → extractThreshold .binary32 .binary64 parse
        (.pair (.float (.fin (Rounding.binary64.rnd q))) (.int l)) = some (.ratioWithLimit (.fin y) l)) ∧
      ∀ len ≤ 255, ∀ d, (Allowed .binary32 len (.ratio y) d ↔ Allowed .exact len (.ratio q) d) ∧
        ∀ l ≤ 52, (Allowed .binary32 len (.ratioWithLimit y l) d ↔ Allowed .exact len (.ratioWithLimit q l) d) := by
  obtain ⟨k, hk, rfl⟩ := decimal_nat h hn hq
  refine ⟨_, rfl, fun l hl => ?_, fun len hL d => ⟨allowed_exact (.ratio hk (.inr rfl)) hL,
    fun l hl => allowed_exact (.limit hk (.inr rfl) hl) hL⟩⟩
  unfold extractThreshold PyVal.asUnsigned PyVal.asInt
  have h0 : (0 : Int) ≤ l ∧ (l : Int) ≤ (255 : Nat) := ⟨by omega, by omega⟩
  simp only [h0, and_self, if_true, PyVal.asF32, PyVal.asF64, Option.map_some, roundTo, Int.toNat_natCast]

/-- **C119**, limits: with a limit of 53 the ratio 0.53 allows 52 for a text of 100 symbols; with seven places, the
ratio 0.8333333 allows 5 for a text of six; and with four places, 0.0112 allows 6 instead of 7 for one of 625. -/
theorem threshold_inexact :
    (DecimalText "0.53".toList 2 (53 / 100) ∧
      Allowed .binary32 100 (.ratioWithLimit (Rounding.binary32.rnd (53 / 100)) 53) 52 ∧
      Allowed .exact 100 (.ratioWithLimit (53 / 100) 53) 53) ∧
    (DecimalText "0.8333333".toList 7 (8333333 / 10000000) ∧
      Allowed .binary32 6 (.ratio (Rounding.binary32.rnd (8333333 / 10000000))) 5 ∧
      Allowed .exact 6 (.ratio (8333333 / 10000000)) 4) ∧
    (DecimalText "0.0112".toList 4 (112 / 10000) ∧
      Allowed .binary32 625 (.ratio (Rounding.binary32.rnd (112 / 10000))) 6 ∧
      Allowed .exact 625 (.ratio (112 / 10000)) 7) := by
  have f : ∀ q l, l ≤ 255 → Fits (.ratioWithLimit q l) := fun q l h => h
  have g : ∀ q, Fits (.ratio q) := fun q => trivial
  refine ⟨⟨⟨[0], [5, 3], by decide, by decide, rfl, rfl, ?_⟩, (allowed_iff (f _ _ (by decide))).mpr ?_,
    (allowed_iff (f _ _ (by decide))).mpr ?_⟩, ⟨⟨[0], [8, 3, 3, 3, 3, 3, 3], by decide, by decide, rfl, rfl, ?_⟩,
    (allowed_iff (g _)).mpr ?_, (allowed_iff (g _)).mpr ?_⟩, ⟨[0], [0, 1, 1, 2], by decide, by decide, rfl, rfl, ?_⟩,
    (allowed_iff (g _)).mpr ?_, (allowed_iff (g _)).mpr ?_⟩ <;> decide +kernel

/-! ### Examples -/

/-- A parser of decimals. -/
def exDecimals (r : Rounding) (s : List Char) : Option EFloat :=
  match splitChar '.' s with
  | [a, b] => (parseUnsigned (10 ^ (a.length + b.length)) (a ++ b)).map fun v : Nat => .fin (r.rnd (v / 10 ^ b.length))
  | _ => none

theorem exReadsDecimals (r : Rounding) : ReadsDecimals r (exDecimals r) := by
  rintro s n q ⟨ds, es, h1, h2, rfl, rfl, rfl⟩ _
  have hd : ∀ d, d < 10 → Nat.digitChar d ≠ '.' := by decide
  have hm : ∀ l : List Nat, (∀ d ∈ l, d < 10) → '.' ∉ l.map Nat.digitChar := by
    intro l hl hm
    obtain ⟨d, i1, i2⟩ := List.mem_map.mp hm
    exact hd d (hl d i1) i2
  have hs : splitChar '.' (ds.map Nat.digitChar ++ '.' :: es.map Nat.digitChar) =
      [ds.map Nat.digitChar, es.map Nat.digitChar] := by
    rw [splitChar_sep (hm ds fun d hd => h2 d (List.mem_append_left _ hd)),
      splitChar_none (hm es fun d hd => h2 d (List.mem_append_right _ hd))]
  have hp : parseUnsigned (10 ^ (ds.length + es.length)) (ds.map Nat.digitChar ++ es.map Nat.digitChar) =
      some (Nat.ofDigits 10 (ds ++ es).reverse) := by
    rw [parseUnsigned_iff]
    refine ⟨ds ++ es, by simp [h1], h2, .inl (by rw [List.map_append]), rfl, ?_⟩
    have := Nat.ofDigits_lt_base_pow_length (b := 10) (l := (ds ++ es).reverse) (by norm_num) (by
      intro d hd
      exact h2 d (List.mem_reverse.mp hd))
    rw [List.length_reverse, List.length_append] at this
    exact this.le
  simp only [exDecimals, hs, List.length_map, hp, Option.map_some]

/-- The surroundings of the examples, with IEEE 754 arithmetic. -/
def exToolD (ls : List (Option (List Char))) : ToolExt :=
  { exToolW ls with text := exText32, parseF32 := exDecimals .binary32 }

/-- `query --alphabet a --lexicon l --max-anagram-distance 0.67 --max-edit-distance 0.5;2` -/
def exQueryD : CommandLine :=
  { sub := .query, debug := none
    given := [(.alphabet, ['a']), (.lexicon, ['l']), (.maxAnagramDistance, "0.67".toList),
      (.maxEditDistance, "0.5;2".toList)] }

theorem exMeantD : ThresholdMeant "0.67".toList (.ratio (67 / 100)) ∧
    ThresholdMeant "0.5;2".toList (.ratioWithLimit (1 / 2) 2) := by
  refine ⟨.ratio (n := 2) ⟨[0], [6, 7], by decide, by decide, rfl, rfl, ?_⟩ (by norm_num) (by norm_num),
    .limit (a := "0.5".toList) (b := "2".toList) (n := 1) ⟨[0], [5], by decide, by decide, rfl, rfl, ?_⟩ (by norm_num)
      (by norm_num) ⟨[2], by decide, by decide, .inl rfl, rfl, by decide⟩⟩
  · decide +kernel
  · decide +kernel

theorem exDecimals_semicolon (r : Rounding) (s : List Char) (h : ';' ∈ s) : exDecimals r s = none := by
  unfold exDecimals
  split
  · rename_i a b hs
    have e := intercalate_splitChar '.' s
    rw [hs] at e
    have hab : ';' ∈ a ++ b := by
      rw [← e] at h
      simpa [List.intercalate, List.intersperse] using h
    cases hp : parseUnsigned (10 ^ (a.length + b.length)) (a ++ b) with
    | none => rfl
    | some v =>
      exfalso
      obtain ⟨ds, _, hd, hs, _⟩ := (parseUnsigned_iff _ _ _).mp hp
      have hc : ∀ d, d < 10 → Nat.digitChar d ≠ ';' := by decide
      have hm : ';' ∉ ds.map Nat.digitChar := by
        intro hm
        obtain ⟨d, h1, h2⟩ := List.mem_map.mp hm
        exact hc d (hd d h1) h2
      rcases hs with hs | hs <;> rw [hs] at hab
      · exact hm hab
      · rcases List.mem_cons.mp hab with h | h
        · exact absurd h (by decide)
        · exact hm h
  · rfl

/-- The numbers of the command line. -/
def exNumbersD : TextParams :=
  ((exQueryD.searchParameters (exDecimals .binary32) exParse).toOption.bind SearchParameters.finite).getD exTextParams

abbrev exLexD : List (Option (List Char)) := [some "ab\t7".toList, some "ba\t16".toList, some "a\t1".toList]

abbrev exWordsD : List (List (List Char × Option Nat × VocabParams)) :=
  [[("ab".toList, some 7, {}), ("ba".toList, some 16, {}), (['a'], some 1, {})]]

theorem exPlainD : PlainQuery (exToolD exLexD) exQueryD [['q'], ['-']] [["a".toList, "A".toList], ["b".toList]] exWordsD
    ⟨1 / 2, 1 / 8, 1 / 8, 1 / 8, 1 / 8⟩ exNumbersD.variant ["ab".toList, "ab b".toList, "bb".toList] := by
  have hp := exPlain4 (ls := exLexD) (es := [("ab".toList, 7), ("ba".toList, 16), (['a'], 1)])
    (.cons (exVocab rfl (by decide)) (.cons (exVocab rfl (by decide)) (.cons (exVocab rfl (by decide)) .nil)))
    (by decide) (by decide)
  have hc : Accepted exQueryD := accepted_of (by decide) (by decide)
  have hq : ∃ q, exQueryD.searchParameters (exDecimals .binary32) exParse = .ok q ∧
      q.finite = some exNumbersD := by
    have h : ((exQueryD.searchParameters (exDecimals .binary32) exParse).toOption.bind
        SearchParameters.finite).isSome = true := by decide +kernel
    have hs := exSome exTextParams h
    cases he : exQueryD.searchParameters (exDecimals .binary32) exParse with
    | error e => rw [he] at h; cases h
    | ok q =>
      refine ⟨q, rfl, ?_⟩
      rw [he] at hs
      unfold exNumbersD
      rw [he]
      exact hs
  obtain ⟨q, hq1, hq2⟩ := hq
  obtain ⟨r1, r2⟩ := (command_line_parameters_partial (exDecimals_semicolon .binary32) hc q).mp hq1
  have hnum : UsableNumbers (exToolD exLexD) exQueryD ⟨1 / 2, 1 / 8, 1 / 8, 1 / 8, 1 / 8⟩ exNumbersD :=
    ⟨(command_line_weights hc _ _ _ _ _).mp (by decide +kernel), by decide +kernel,
      ⟨q, r1, r2, params_finite_iff.mp hq2⟩, .inr (by decide +kernel), .inl rfl⟩
  have hnames : Names exQueryD ⟨['a'], [(['l'], 3)], [], [], [], [], []⟩ := by constructor <;> decide
  obtain ⟨afile, alines, ha1, ha2, ha3⟩ := hp.letters
  refine ⟨exDecimals_semicolon _, ex_pos, ex_marks, rfl, hc, rfl, fun o ho => not_given ?_, ?_, ?_,
    ⟨exNumbersD, [[some "ab".toList], exToolR.stdin], hnum, rfl, inputsOf_iff.mp rfl, ?_, by decide⟩,
    by decide +kernel, ?_⟩
  · revert o; decide
  · refine ⟨⟨⟨['a'], [(['l'], 3)], [], [], [], [], []⟩, hnames, ?_⟩, by decide⟩
    refine ⟨⟨[some "a\tA".toList, some ['b']], rfl, by decide⟩, .cons (Adds.lexicon rfl (es :=
      [("ab".toList, 7), ("ba".toList, 16), (['a'], 1)]) (.cons (exVocab rfl (by decide))
        (.cons (exVocab rfl (by decide)) (.cons (exVocab rfl (by decide)) .nil)))) .nil,
      by decide, by decide, by decide, fun f hf => (by cases hf), fun f hf => (by cases hf)⟩
  · exact ⟨afile, alines, by
      simp only [exQueryP, List.mem_append, List.mem_cons, List.not_mem_nil, or_false, Prod.mk.injEq] at ha1
      simpa [exQueryD] using ha1, ha2, ha3⟩
  · intro _ lines hl
    simp only [List.mem_cons, List.not_mem_nil, or_false] at hl
    rcases hl with rfl | rfl <;> decide
  · intro l hl
    obtain ⟨qs, hqs⟩ := encodes_exists (alphabet := [["a".toList, "A".toList], ["b".toList]])
      (by unfold NoEmpty; decide) 3 l
    have hlen := encodes_length hqs
    have hlen' : ∀ l ∈ ["ab".toList, "ab b".toList, "bb".toList], l ≠ [] ∧ l.length ≤ 4 := by decide
    have ha : exNumbersD.variant.maxAnagramDistance = .ratio (Rounding.binary32.rnd (67 / 100)) := by
      have h : parsedAs exNumbersD.variant.maxAnagramDistance = .ratio (.fin (Rounding.binary32.rnd (67 / 100))) := by
        decide +kernel
      cases ht : exNumbersD.variant.maxAnagramDistance <;> rw [ht] at h <;> simp only [parsedAs] at h <;> cases h
      rfl
    refine ⟨(hlen' l hl).1, qs, _, hqs, (allowed_iff ?_).mpr rfl, ?_⟩
    · rw [ha]
      exact trivial
    · rw [ha]
      have : effectiveDistance exText32.f32 qs.length (.ratio (Rounding.binary32.rnd (67 / 100))) ≤ 12 :=
        min_le_right _ _
      have h4 := (hlen' l hl).2
      show qs.length + effectiveDistance exText32.f32 qs.length _ ≤ 255
      omega

/-- Half of a line of two symbols is one: `0.5;2` and `0.67` are read exactly. -/
example : ∃ rs : List (List Char × Nat × List Hit), rs.map Prod.fst = ["ab".toList, "ab b".toList, "bb".toList] ∧
    (∀ r ∈ rs, Ranked (exactly exText32) [["a".toList, "A".toList], ["b".toList]] exWordsD
      ⟨1 / 2, 1 / 8, 1 / 8, 1 / 8, 1 / 8⟩
      (withThresholds exNumbersD.variant (.ratio (67 / 100)) (.ratioWithLimit (1 / 2) 2)) r.1 r.2.1 r.2.2) ∧
    (exToolD exLexD).main exQueryD [['q'], ['-']] =
      .ok (.output "ab\tab\t1\t\nab b\tab\t0.5\t\nbb\n".toList []) := by
  obtain ⟨rs, h1, h2, _⟩ := query_thresholds_exact exPlainD rfl (exReadsDecimals _) (va := "0.67".toList)
    (ve := "0.5;2".toList) (.inl (by decide)) exMeantD.1 (.inl (by decide)) exMeantD.2
  exact ⟨rs, h1, h2, by decide +kernel⟩

/-- A third of a text of nine symbols: `0.33` allows two, `0.34` three. -/
example : ∃ t, parseThreshold (exDecimals .binary32) "0.34".toList = some (parsedAs t) ∧ Allowed .binary32 9 t 3 := by
  obtain ⟨t, h1, h2⟩ := threshold_exact (exDecimals_semicolon .binary32) (exReadsDecimals _) (s := "0.34".toList)
    (.ratio (n := 2) (q := 34 / 100) ⟨[0], [3, 4], by decide, by decide, rfl, rfl, by decide +kernel⟩ (by norm_num)
      (by norm_num))
  exact ⟨t, h1, (h2 9 (by norm_num) 3).mpr ((allowed_iff (t := .ratio (34 / 100)) trivial).mpr (by decide +kernel))⟩

example : ∃ y, extractThreshold .binary32 .binary64 exParse (.float (.fin (Rounding.binary64.rnd (7 / 10)))) =
      some (.ratio (.fin y)) ∧ Allowed .binary32 10 (.ratio y) 7 := by
  obtain ⟨y, h1, _, h2⟩ := python_threshold_exact exParse (s := "0.7".toList) (n := 1) (q := 7 / 10)
    ⟨[0], [7], by decide, by decide, rfl, rfl, by decide +kernel⟩ (by norm_num) (by norm_num)
  exact ⟨y, h1, (h2 10 (by norm_num) 7).1.mpr ((allowed_iff (t := .ratio (7 / 10)) trivial).mpr (by decide +kernel))⟩

end Verif.Props
