import Verif.Spec.Unchanged
import Verif.Props.SimilarRuns
import Verif.Model.Ieee

/-!
# What does not change the suggestions (C131)
-/
namespace Verif.Props

open Verif.Spec Verif.Model Verif.Lemmas

/-- Two queries give the same up to ties if for each line the words and scores to choose from are the same. -/
theorem same_suggestions {x x' : ToolExt} {c c' : CommandLine} {files files' : List (List Char)}
    {alphabet : Alphabet} {as as' : List (List (List Char × Option Nat × VocabParams))} {w w' : Weights}
    {p : Params} {lines : List (List Char)} (h : PlainQuery x c files alphabet as w p lines)
    (h' : PlainQuery x' c' files' alphabet as' w' p lines) (htext : x'.text = x.text)
    (hlimit : p.freqWeight = 0 ∨ p.maxMatches = 0)
    (hsame : ∀ l ∈ lines, ∀ top hits top' hits', Ranked x.text alphabet as w p l top hits →
      Ranked x.text alphabet as' w' p l top' hits' →
      (hits.map fun u => (u.word, u.overall x.text.f64 p.freqWeight top)).Perm
        (hits'.map fun u => (u.word, u.overall x.text.f64 p.freqWeight top'))) :
    SameSuggestions x c files x' c' files' p lines := by
  obtain ⟨rs, h1, h2, h3⟩ := plain_query h
  obtain ⟨rs', h1', h2', h3'⟩ := plain_query h'
  rw [htext] at h2' h3'
  obtain ⟨ts, i1, i2, i3, i4⟩ := pair_rows (R := SameButTies p)
    (f := fun r => (shown x.text.f64 p.maxMatches p.cutoffThreshold
        (Hit.overall x.text.f64 p.freqWeight r.1) Hit.score r.2).map
          fun u => (u.word, u.overall x.text.f64 p.freqWeight r.1))
    (f' := fun r => (shown x.text.f64 p.maxMatches p.cutoffThreshold
        (Hit.overall x.text.f64 p.freqWeight r.1) Hit.score r.2).map
          fun u => (u.word, u.overall x.text.f64 p.freqWeight r.1)) h1 h1' (by
      rintro l ⟨top, hits⟩ ⟨top', hits'⟩ hr hr'
      have hl : l ∈ lines := h1 ▸ List.mem_map_of_mem (f := Prod.fst) hr
      have hr := h2 _ hr
      have hr' := h2' _ hr'
      simp only at hr hr'
      have hp := hsame l hl top hits top' hits' hr hr'
      have hs := ranked_scores hr
      have hs' := ranked_scores hr'
      simp only
      have hsim : ∀ (top : Nat) (hits : List Hit), shown x.text.f64 p.maxMatches p.cutoffThreshold
            (Hit.overall x.text.f64 p.freqWeight top) Hit.score hits =
            shown x.text.f64 p.maxMatches p.cutoffThreshold (Hit.overall x.text.f64 p.freqWeight top)
              (Hit.overall x.text.f64 p.freqWeight top) hits := by
        intro top hits
        rcases hlimit with h0 | h0
        · have e : Hit.overall x.text.f64 p.freqWeight top = Hit.score := by
            funext u; rw [Hit.overall, if_pos h0]
          rw [e]
        · unfold shown closeOnes firstOnes
          simp only [if_pos h0]
      refine ⟨?_, ?_, ?_, ?_⟩
      · rw [List.map_map, List.map_map, hsim, hsim]
        have e1 := fun (top : Nat) (hits : List Hit) => shown_map x.text.f64 p.maxMatches p.cutoffThreshold
          (score := Hit.overall x.text.f64 p.freqWeight top) (score' := id)
          (sim := Hit.overall x.text.f64 p.freqWeight top) (sim' := id)
          (f := Hit.overall x.text.f64 p.freqWeight top) (l := hits) (fun _ _ => rfl) fun _ _ => rfl
        have e3 : hits.map (Hit.overall x.text.f64 p.freqWeight top) =
            hits'.map (Hit.overall x.text.f64 p.freqWeight top') :=
          List.Perm.eq_of_pairwise (le := fun a b : Rat => b ≤ a)
            (fun a b _ _ h1 h2 => le_antisymm h2 h1) (List.pairwise_map.mpr hs)
            (List.pairwise_map.mpr hs') (by
              have := hp.map Prod.snd
              rwa [List.map_map, List.map_map] at this)
        exact (e1 top hits).symm.trans ((congrArg _ e3).trans (e1 top' hits'))
      · rintro u hu v hv huv
        obtain ⟨a, ha, rfl⟩ := List.mem_map.mp hu
        obtain ⟨b, hb, rfl⟩ := List.mem_map.mp hv
        obtain ⟨a', ha', e⟩ := List.mem_map.mp (hp.mem_iff.mp (List.mem_map_of_mem
          ((shown_sublist _ _ _ _ _ _).subset ha)))
        refine List.mem_map.mpr ⟨a', shown_upward hs' ha' hb ?_, e⟩
        have := (Prod.ext_iff.mp e).2
        simp only at this huv
        rwa [this]
      · rintro u hu v hv huv
        obtain ⟨a, ha, rfl⟩ := List.mem_map.mp hu
        obtain ⟨b, hb, rfl⟩ := List.mem_map.mp hv
        obtain ⟨b', hb', e⟩ := List.mem_map.mp (hp.mem_iff.mpr (List.mem_map_of_mem
          ((shown_sublist _ _ _ _ _ _).subset hb)))
        refine List.mem_map.mpr ⟨b', shown_upward hs hb' ha ?_, e⟩
        have := (Prod.ext_iff.mp e).2
        simp only at this huv
        rwa [this]
      · intro hm hc
        unfold shown closeOnes firstOnes
        simp only [if_pos hm, if_pos hc]
        exact hp) x x'
  exact ⟨ts, i1, by rw [h3]; exact congrArg (fun s => Except.ok (Outcome.output s [])) i2,
    by rw [h3']; exact congrArg (fun s => Except.ok (Outcome.output s [])) i3, i4⟩

/-- Lists of words with scores are permutations of each other if they have the same elements. -/
theorem pairs_perm {hits hits' : List Hit} (hn : (hits.map Hit.word).Nodup) (hn' : (hits'.map Hit.word).Nodup)
    {f f' : Hit → Rat} (h : ∀ u ∈ hits, ∃ v ∈ hits', v.word = u.word ∧ f' v = f u)
    (h' : ∀ v ∈ hits', ∃ u ∈ hits, u.word = v.word ∧ f u = f' v) :
    (hits.map fun u => (u.word, f u)).Perm (hits'.map fun u => (u.word, f' u)) := by
  have nd : ∀ {l : List Hit} {g : Hit → Rat}, (l.map Hit.word).Nodup → (l.map fun u => (u.word, g u)).Nodup := by
    intro l g hl
    refine List.Nodup.of_map Prod.fst ?_
    rwa [List.map_map]
  refine (List.perm_ext_iff_of_nodup (nd hn) (nd hn')).mpr ?_
  intro a
  constructor
  · intro ha
    obtain ⟨u, hu, rfl⟩ := List.mem_map.mp ha
    obtain ⟨v, hv, e1, e2⟩ := h u hu
    exact List.mem_map.mpr ⟨v, hv, by rw [e1, e2]⟩
  · intro ha
    obtain ⟨u, hu, rfl⟩ := List.mem_map.mp ha
    obtain ⟨v, hv, e1, e2⟩ := h' u hu
    exact List.mem_map.mpr ⟨v, hv, by rw [e1, e2]⟩

/-- **C131**: words out of reach of all lines do not matter.  Two queries for the same lines with the same alphabet,
weights and parameters give the same up to ties if the words within reach of the lines are the same and have
the same frequencies, whatever else the lexicons have. -/
theorem out_of_reach_irrelevant {x x' : ToolExt} {c c' : CommandLine} {files files' : List (List Char)}
    {alphabet : Alphabet} {as as' : List (List (List Char × Option Nat × VocabParams))} {w : Weights}
    {p : Params} {lines : List (List Char)} (h : PlainQuery x c files alphabet as w p lines)
    (h' : PlainQuery x' c' files' alphabet as' w p lines) (htext : x'.text = x.text)
    (hsame : ∀ l ∈ lines, ∀ t s, Near x.text alphabet w p l t s → ∀ n, WordFreq as t n ↔ WordFreq as' t n)
    (hlimit : p.freqWeight = 0 ∨ p.maxMatches = 0) :
    SameSuggestions x c files x' c' files' p lines := by
  refine same_suggestions h h' htext hlimit ?_
  intro l hl top hits top' hits' hr hr'
  have hmem : ∀ u, u ∈ hits ↔ u ∈ hits' := by
    intro u
    rw [hr.mem, hr'.mem]
    refine and_congr_right fun _ => and_congr_right fun hs => hsame l hl _ _ hs.1 _
  have hp : hits.Perm hits' := (List.perm_ext_iff_of_nodup hr.nodup.of_map hr'.nodup.of_map).mpr hmem
  by_cases h0 : hits = []
  · subst h0
    rw [hp.symm.eq_nil]
    exact .refl _
  · have e : top = top' := by
      refine (hr.greatest h0).unique ?_
      have := hr'.greatest fun e => h0 (by rw [e] at hp; exact hp.eq_nil)
      have e : {n | ∃ t s, ¬ Reserved t ∧ Near x.text alphabet w p l t s ∧ WordFreq as t n} =
          {n | ∃ t s, ¬ Reserved t ∧ Near x.text alphabet w p l t s ∧ WordFreq as' t n} := by
        ext n
        refine exists_congr fun t => exists_congr fun s => and_congr_right fun _ => and_congr_right fun hs =>
          hsame l hl _ _ hs _
      rw [e]
      exact this
    rw [e]
    exact hp.map _

/-- **C131**: without frequency ranking, frequencies only decide between words with the same score.  Two queries
for the same lines with the same alphabet, weights and parameters give the same up to ties if their lexicons
have the same words within reach of the lines, with whatever frequencies. -/
theorem frequencies_break_ties {x x' : ToolExt} {c c' : CommandLine} {files files' : List (List Char)}
    {alphabet : Alphabet} {as as' : List (List (List Char × Option Nat × VocabParams))} {w : Weights}
    {p : Params} {lines : List (List Char)} (h : PlainQuery x c files alphabet as w p lines)
    (h' : PlainQuery x' c' files' alphabet as' w p lines) (htext : x'.text = x.text)
    (hsame : ∀ l ∈ lines, ∀ t s, Near x.text alphabet w p l t s →
      ((∃ a ∈ as.flatten, a.1 = t) ↔ ∃ a ∈ as'.flatten, a.1 = t))
    (hlimit : p.freqWeight = 0) :
    SameSuggestions x c files x' c' files' p lines := by
  refine same_suggestions h h' htext (.inl hlimit) ?_
  intro l hl top hits top' hits' hr hr'
  have e : ∀ (top : Nat) (u : Hit), u.overall x.text.f64 p.freqWeight top = u.score := by
    intro top u; rw [Hit.overall, if_pos hlimit]
  simp only [e]
  refine pairs_perm hr.nodup hr'.nodup ?_ ?_
  · intro u hu
    obtain ⟨h1, h2, h3⟩ := (hr.mem u).mp hu
    obtain ⟨a, ha, ha', _⟩ := h3.1
    obtain ⟨n, hn⟩ := wordFreq_exists ((hsame l hl _ _ h2.1).mp ⟨a, ha, ha'⟩)
    exact ⟨⟨u.word, u.score, n⟩, (hr'.mem _).mpr ⟨h1, h2, hn⟩, rfl, rfl⟩
  · intro u hu
    obtain ⟨h1, h2, h3⟩ := (hr'.mem u).mp hu
    obtain ⟨a, ha, ha', _⟩ := h3.1
    obtain ⟨n, hn⟩ := wordFreq_exists ((hsame l hl _ _ h2.1).mpr ⟨a, ha, ha'⟩)
    exact ⟨⟨u.word, u.score, n⟩, (hr.mem _).mpr ⟨h1, h2, hn⟩, rfl, rfl⟩

/-- **C131**: only relative frequencies count.  Two queries for the same lines with the same alphabet, weights
and parameters give the same up to ties if the second has all frequencies multiplied by the same number and
this does not interfere with rounding (see `power_exact`). -/
theorem relative_frequencies_count {x x' : ToolExt} {c c' : CommandLine} {files files' : List (List Char)}
    {alphabet : Alphabet} {as as' : List (List (List Char × Option Nat × VocabParams))} {w : Weights}
    {p : Params} {lines : List (List Char)} (h : PlainQuery x c files alphabet as w p lines)
    (h' : PlainQuery x' c' files' alphabet as' w p lines) (htext : x'.text = x.text) {m : Nat} (hm : 0 < m)
    (hround : ∀ n : Nat, x.text.f64.rnd ((m * n : Nat) : Rat) = m * x.text.f64.rnd n)
    (hsame : ∀ l ∈ lines, ∀ t s, Near x.text alphabet w p l t s →
      ∀ n, WordFreq as' t n ↔ ∃ k, n = m * k ∧ WordFreq as t k)
    (hlimit : p.freqWeight = 0 ∨ p.maxMatches = 0) :
    SameSuggestions x c files x' c' files' p lines := by
  refine same_suggestions h h' htext hlimit ?_
  intro l hl top hits top' hits' hr hr'
  have fwd : ∀ u ∈ hits, (⟨u.word, u.score, m * u.freq⟩ : Hit) ∈ hits' := by
    intro u hu
    obtain ⟨h1, h2, h3⟩ := (hr.mem u).mp hu
    exact (hr'.mem _).mpr ⟨h1, h2, (hsame l hl _ _ h2.1 _).mpr ⟨_, rfl, h3⟩⟩
  have bwd : ∀ v ∈ hits', ∃ k, v.freq = m * k ∧ (⟨v.word, v.score, k⟩ : Hit) ∈ hits := by
    intro v hv
    obtain ⟨h1, h2, h3⟩ := (hr'.mem v).mp hv
    obtain ⟨k, e, hk⟩ := (hsame l hl _ _ h2.1 _).mp h3
    exact ⟨k, e, (hr.mem _).mpr ⟨h1, h2, hk⟩⟩
  by_cases h0 : hits = []
  · subst h0
    cases hits' with
    | nil => exact .refl _
    | cons v _ => obtain ⟨k, _, hk⟩ := bwd v List.mem_cons_self; cases hk
  have htop : top' = m * top := by
    have h0' : hits' ≠ [] := by
      intro e
      obtain ⟨u, hu⟩ := List.exists_mem_of_ne_nil _ h0
      have := fwd u hu
      rw [e] at this
      cases this
    obtain ⟨⟨t, s, a1, a2, a3⟩, a4⟩ := hr.greatest h0
    refine (hr'.greatest h0').unique ⟨⟨t, s, a1, a2, (hsame l hl _ _ a2 _).mpr ⟨_, rfl, a3⟩⟩, ?_⟩
    rintro n ⟨t, s, b1, b2, b3⟩
    obtain ⟨k, rfl, b4⟩ := (hsame l hl _ _ b2 _).mp b3
    exact Nat.mul_le_mul_left _ (a4 ⟨t, s, b1, b2, b4⟩)
  have hrel : ∀ word score k, (⟨word, score, m * k⟩ : Hit).overall x.text.f64 p.freqWeight top' =
      (⟨word, score, k⟩ : Hit).overall x.text.f64 p.freqWeight top := by
    intro word score k
    have : (⟨word, score, m * k⟩ : Hit).relFreq x.text.f64 top' =
        (⟨word, score, k⟩ : Hit).relFreq x.text.f64 top := by
      unfold Hit.relFreq
      simp only
      rw [htop, hround, hround, mul_div_mul_left _ _ (by exact_mod_cast hm.ne')]
    unfold Hit.overall
    rw [this]
  refine pairs_perm hr.nodup hr'.nodup ?_ ?_
  · intro u hu
    exact ⟨_, fwd u hu, rfl, hrel _ _ _⟩
  · intro v hv
    obtain ⟨k, e, hk⟩ := bwd v hv
    refine ⟨_, hk, rfl, ?_⟩
    rw [← hrel, ← e]

/-! ### Weights -/

/-- 0 or not too small for a full number of binary places. -/
def Normal (y : Rat) : Prop := y = 0 ∨ 2 ^ (-1022 : Int) ≤ y

theorem Normal.nonneg {y : Rat} (h : Normal y) : 0 ≤ y := by
  rcases h with rfl | h
  · exact le_rfl
  · exact (two_zpow_pos _).le.trans h

theorem Normal.add {y z : Rat} (h : Normal y) (h' : Normal z) : Normal (y + z) := by
  rcases h with rfl | h
  · rwa [zero_add]
  · exact .inr (h.trans (le_add_of_nonneg_right h'.nonneg))

theorem Normal.rnd {r : Rounding} {q : Rat} (hr : ScaleSafe r q) {y : Rat} (h : Normal y) : Normal (r.rnd y) := by
  rcases h with rfl | h
  · exact .inl r.zero
  · exact .inr (hr.least ▸ r.mono _ _ h)

theorem roundedSum_scaled {r : Rounding} {q : Rat} (hr : ScaleSafe r q) {l : List Rat} (h : ∀ a ∈ l, Normal a) :
    roundedSum r (l.map (q * ·)) = q * roundedSum r l := by
  cases l with
  | nil => simp [roundedSum]
  | cons a l =>
    have ha := h a List.mem_cons_self
    have hl : ∀ b ∈ l, Normal b := fun b hb => h b (List.mem_cons_of_mem _ hb)
    clear h
    unfold roundedSum
    simp only [List.map_cons]
    induction l generalizing a with
    | nil => rfl
    | cons b l ih =>
      have hab := ha.add (hl b List.mem_cons_self)
      rw [List.map_cons, List.foldl_cons, List.foldl_cons, ← mul_add, hr.mul _ hab]
      exact ih _ (hab.rnd hr) fun c hc => hl c (List.mem_cons_of_mem _ hc)

/-- 0 or at least 1/512. -/
def Part (y : Rat) : Prop := y = 0 ∨ 1 / 512 ≤ y

theorem Part.rnd {r : Rounding} {q : Rat} (hr : ScaleSafe r q) {y : Rat} (h : Part y) : Part (r.rnd y) := by
  rcases h with rfl | h
  · exact .inl r.zero
  · exact .inr (hr.unit ▸ r.mono _ _ h)

theorem part_div {k len : Nat} (h : len ≤ 255) : Part ((k : Rat) / len) := by
  by_cases hk : k = 0
  · left; simp [hk]
  by_cases hl : len = 0
  · left; simp [hl]
  right
  have hl' : (0 : Rat) < len := by exact_mod_cast Nat.pos_of_ne_zero hl
  rw [le_div_iff₀ hl']
  have h1 : (1 : Rat) ≤ k := by exact_mod_cast Nat.pos_of_ne_zero hk
  have h2 : (len : Rat) ≤ 255 := by exact_mod_cast h
  linarith

theorem part_kept {r : Rounding} {q : Rat} (hr : ScaleSafe r q) {k len : Nat} (h : len ≤ 255) (hk : k ≤ len) :
    Part (r.rnd (1 - r.rnd (k / len))) := by
  rcases hk.lt_or_eq with hk | rfl
  · refine Part.rnd hr (.inr ?_)
    have hl : (0 : Rat) < len := by exact_mod_cast (Nat.zero_le k).trans_lt hk
    have h1 : (k : Rat) / len ≤ 511 / 512 := by
      rw [div_le_iff₀ hl]
      have h1 : (k : Rat) + 1 ≤ len := by exact_mod_cast hk
      have h2 : (len : Rat) ≤ 255 := by exact_mod_cast h
      linarith
    have h2 := r.mono _ _ h1
    rw [hr.most] at h2
    linarith
  · by_cases h0 : k = 0
    · subst h0
      right
      simp only [Nat.cast_zero, div_zero, r.zero, sub_zero, r.one]
      norm_num
    · left
      rw [div_self (by exact_mod_cast h0), r.one, sub_self, r.zero]

theorem normal_product {v y : Rat} (hv : Ordinary v) (hy : Part y) : Normal (v * y) := by
  rcases hv with rfl | hv
  · left; rw [zero_mul]
  rcases hy with rfl | hy
  · left; rw [mul_zero]
  right
  calc (2 : Rat) ^ (-1022 : Int) ≤ 2 ^ (-1009 : Int) := zpow_le_zpow_right₀ (by norm_num) (by norm_num)
    _ = 2 ^ (-1000 : Int) * (1 / 512) := by
      rw [show (-1009 : Int) = -1000 + (-9) by norm_num, zpow_add₀ two_ne_zero]
      norm_num
    _ ≤ v * y := mul_le_mul hv hy (by norm_num) ((two_zpow_pos _).le.trans hv)

theorem Normal.of_ordinary {v : Rat} (hv : Ordinary v) : Normal v := by
  have := normal_product hv (y := 1) (.inr (by norm_num))
  rwa [mul_one] at this

/-- All weights are ordinary. -/
def AllOrdinary (w : Weights) : Prop :=
  Ordinary w.ld ∧ Ordinary w.lcs ∧ Ordinary w.pre ∧ Ordinary w.suf ∧ Ordinary w.case

theorem scoreOf_scaled {r : Rounding} {q : Rat} (hq : 0 < q) (hr : ScaleSafe r q) {w : Weights} (hw : AllOrdinary w)
    {len : Nat} (hlen : len ≤ 255) (d : Distance) (s : Rat) :
    ScoreOf r (scaled q w) len d s ↔ ScoreOf r w len d s := by
  obtain ⟨w1, w2, w3, w4, w5⟩ := hw
  unfold ScoreOf
  refine exists_congr fun kept => and_congr_right fun hkept => ?_
  have hk : Part kept := by
    rcases hkept with ⟨h1, rfl⟩ | ⟨_, rfl⟩
    · exact part_kept hr hlen h1
    · exact .inl rfl
  have n1 := normal_product w1 hk
  have n2 := normal_product w2 ((part_div (k := d.lcs) hlen).rnd hr)
  have n3 := normal_product w3 ((part_div (k := d.prefixlen) hlen).rnd hr)
  have n4 := normal_product w4 ((part_div (k := d.suffixlen) hlen).rnd hr)
  have n5 : Normal (if d.samecase then w.case else 0) := by
    split
    · exact .of_ordinary w5
    · exact .inl rfl
  have e1 := roundedSum_scaled hr (l := [r.rnd (w.ld * kept), r.rnd (w.lcs * r.rnd (d.lcs / len)),
        r.rnd (w.pre * r.rnd (d.prefixlen / len)), r.rnd (w.suf * r.rnd (d.suffixlen / len)),
        if d.samecase then w.case else 0]) (by
    simp only [List.mem_cons, List.not_mem_nil, or_false]
    rintro a (rfl | rfl | rfl | rfl | rfl)
    · exact n1.rnd hr
    · exact n2.rnd hr
    · exact n3.rnd hr
    · exact n4.rnd hr
    · exact n5)
  have e2 := roundedSum_scaled hr (l := [w.ld, w.lcs, w.pre, w.suf, w.case]) (by
    simp only [List.mem_cons, List.not_mem_nil, or_false]
    rintro a (rfl | rfl | rfl | rfl | rfl)
    · exact .of_ordinary w1
    · exact .of_ordinary w2
    · exact .of_ordinary w3
    · exact .of_ordinary w4
    · exact .of_ordinary w5)
  simp only [List.map_cons, List.map_nil, mul_ite, mul_zero] at e1 e2
  unfold scaled
  simp only [mul_assoc]
  rw [hr.mul _ n1, hr.mul _ n2, hr.mul _ n3, hr.mul _ n4, e1, e2, mul_div_mul_left _ _ hq.ne']

theorem isDistance_scaled {isLower : Char → Bool} {q : Rat} (hq : 0 < q) (w : Weights) (qs : List Nat)
    (query : List Char) (ns : List Nat) (text : List Char) (d : Distance) :
    IsDistance isLower (scaled q w) qs query ns text d ↔ IsDistance isLower w qs query ns text d := by
  have h1 : ∀ v, 0 < q * v ↔ 0 < v := fun v => mul_pos_iff_of_pos_left hq
  have h2 : ∀ v, q * v ≤ 0 ↔ v ≤ 0 := fun v => by rw [← not_lt, ← not_lt, h1]
  constructor
  · rintro ⟨a1, a2, a3, a4, a5, a6, a7, a8, a9⟩
    unfold scaled at *
    simp only [h1, h2] at *
    exact ⟨a1, a2, a3, a4, a5, a6, a7, a8, a9⟩
  · rintro ⟨a1, a2, a3, a4, a5, a6, a7, a8, a9⟩
    unfold scaled
    exact ⟨a1, by simpa only [h1] using a2, by simpa only [h2] using a3, by simpa only [h1] using a4,
      by simpa only [h2] using a5, by simpa only [h1] using a6, by simpa only [h2] using a7,
      by simpa only [h1] using a8, by simpa only [h2] using a9⟩

/-- **C131**: only relative weights count.  Two queries for the same lines with the same alphabet, words and
parameters give the same up to ties if the second has all weights multiplied by the same positive number and
this does not interfere with rounding (see `power_safe`). -/
theorem relative_weights_count {x x' : ToolExt} {c c' : CommandLine} {files files' : List (List Char)}
    {alphabet : Alphabet} {as as' : List (List (List Char × Option Nat × VocabParams))} {w : Weights}
    {p : Params} {lines : List (List Char)} {q : Rat} (h : PlainQuery x c files alphabet as w p lines)
    (h' : PlainQuery x' c' files' alphabet as' (scaled q w) p lines) (htext : x'.text = x.text) (hq : 0 < q)
    (hround : ScaleSafe x.text.f64 q) (hw : AllOrdinary w)
    (hsame : ∀ l ∈ lines, ∀ t s, Near x.text alphabet w p l t s → ∀ n, WordFreq as t n ↔ WordFreq as' t n)
    (hlimit : p.freqWeight = 0 ∨ p.maxMatches = 0) :
    SameSuggestions x c files x' c' files' p lines := by
  refine same_suggestions h h' htext hlimit ?_
  intro l hl top hits top' hits' hr hr'
  have hnear : ∀ t s, Near x.text alphabet (scaled q w) p l t s ↔ Near x.text alphabet w p l t s := by
    intro t s
    unfold Near
    refine exists_congr fun a => exists_congr fun b => exists_congr fun qs => exists_congr fun ns =>
      exists_congr fun d => exists_congr fun na => exists_congr fun ne => ?_
    rw [isDistance_scaled hq]
    refine and_congr_right fun _ => and_congr_right fun _ => and_congr_right fun hqs => ?_
    obtain ⟨qs', n, s1, _, s3⟩ := (h.short l hl).2
    have hlen : qs.length ≤ 255 := by
      rw [encodes_unique hqs s1]
      omega
    rw [scoreOf_scaled hq hround hw hlen]
  have hsim : ∀ t s, Similar x.text alphabet (scaled q w) p l t s ↔ Similar x.text alphabet w p l t s := by
    intro t s
    unfold Similar
    rw [hnear]
  have hmem : ∀ u, u ∈ hits ↔ u ∈ hits' := by
    intro u
    rw [hr.mem, hr'.mem, hsim]
    refine and_congr_right fun _ => and_congr_right fun hs => hsame l hl _ _ hs.1 _
  have hp : hits.Perm hits' := (List.perm_ext_iff_of_nodup hr.nodup.of_map hr'.nodup.of_map).mpr hmem
  by_cases h0 : hits = []
  · subst h0
    rw [hp.symm.eq_nil]
    exact .refl _
  · have e : top = top' := by
      refine (hr.greatest h0).unique ?_
      have := hr'.greatest fun e => h0 (by rw [e] at hp; exact hp.eq_nil)
      have e : {n | ∃ t s, ¬ Reserved t ∧ Near x.text alphabet w p l t s ∧ WordFreq as t n} =
          {n | ∃ t s, ¬ Reserved t ∧ Near x.text alphabet (scaled q w) p l t s ∧ WordFreq as' t n} := by
        ext n
        simp only [hnear]
        refine exists_congr fun t => exists_congr fun s => and_congr_right fun _ => and_congr_right fun hs =>
          hsame l hl _ _ hs _
      rw [e]
      exact this
    rw [e]
    exact hp.map _

/-! ### Powers of two -/

theorem log_mul_two_pow {y : Rat} (hy : 0 < y) (k : Nat) : Int.log 2 (2 ^ k * y) = Int.log 2 y + k := by
  have hky : (0 : Rat) < 2 ^ k * y := mul_pos (by positivity) hy
  have h1 := Int.zpow_log_le_self (b := 2) one_lt_two hy
  have h2 := Int.lt_zpow_succ_log_self (b := 2) one_lt_two y
  push_cast at h1 h2
  apply le_antisymm
  · rw [← Int.lt_add_one_iff, ← Int.lt_zpow_iff_log_lt one_lt_two hky]
    push_cast
    rw [show Int.log 2 y + k + 1 = k + (Int.log 2 y + 1) by ring, zpow_add₀ two_ne_zero, zpow_natCast]
    exact mul_lt_mul_of_pos_left h2 (by positivity)
  · rw [← Int.zpow_le_iff_le_log one_lt_two hky]
    push_cast
    rw [add_comm, zpow_add₀ two_ne_zero, zpow_natCast]
    exact mul_le_mul_of_nonneg_left h1 (by positivity)

theorem roundBinary_scale {prec : Nat} {emin : Int} {y : Rat} (hy : y = 0 ∨ 2 ^ emin ≤ y) (k : Nat) :
    roundBinary prec emin (2 ^ k * y) = 2 ^ k * roundBinary prec emin y := by
  rcases hy with rfl | hy
  · rw [mul_zero, roundBinary_zero, mul_zero]
  have hpos : 0 < y := (two_zpow_pos _).trans_le hy
  have hlog : emin ≤ Int.log 2 y := by
    rw [← Int.zpow_le_iff_le_log one_lt_two hpos]
    exact_mod_cast hy
  have hl : lastPlace prec emin (2 ^ k * y) = lastPlace prec emin y + k := by
    unfold lastPlace
    rw [abs_of_pos hpos, abs_of_pos (mul_pos (by positivity) hpos), log_mul_two_pow hpos]
    omega
  unfold roundBinary
  rw [hl, zpow_add₀ two_ne_zero, zpow_natCast, mul_comm (2 ^ k : Rat) y,
    mul_div_mul_right _ _ (by positivity)]
  ring

/-- Without rounding, numbers can be multiplied by anything. -/
theorem exact_safe (q : Rat) : ScaleSafe .exact q := ⟨fun _ _ => rfl, rfl, rfl, rfl⟩

/-- In `f64`, multiplication by a power of two does not interfere with rounding. -/
theorem power_safe (k : Nat) : ScaleSafe .binary64 (2 ^ k) := by
  refine ⟨fun y hy => roundBinary_scale hy k, ?_, ?_, ?_⟩
  · have := roundBinary_exact (prec := 53) (by norm_num) (emin := -1022) (n := 1) (e := -1022) (by norm_num) (by norm_num)
    rwa [Int.cast_one, one_mul] at this
  · have := roundBinary_exact (prec := 53) (by norm_num) (emin := -1022) (n := 511) (e := -9) (by norm_num) (by norm_num)
    norm_num at this
    exact this
  · have := roundBinary_exact (prec := 53) (by norm_num) (emin := -1022) (n := 1) (e := -9) (by norm_num) (by norm_num)
    norm_num at this
    exact this

/-- In `f64`, frequencies multiplied by a power of two are rounded alike. -/
theorem power_exact (k n : Nat) :
    Rounding.binary64.rnd ((2 ^ k * n : Nat) : Rat) = (2 ^ k : Nat) * Rounding.binary64.rnd n := by
  push_cast
  refine (power_safe k).mul _ ?_
  by_cases h : n = 0
  · left; simp [h]
  · right
    have h1 : (1 : Rat) ≤ n := by exact_mod_cast Nat.pos_of_ne_zero h
    exact (zpow_le_one_of_nonpos₀ (by norm_num) (by norm_num)).trans h1

/-! ### Examples -/

theorem length_erase_le (b : List Nat) (y : Nat) : b.length ≤ (b.erase y).length + 1 := by
  rw [List.length_erase]
  split <;> omega

theorem length_diff_le (b a : List Nat) : b.length ≤ (b.diff a).length + a.length := by
  induction a generalizing b with
  | nil => simp
  | cons y a ih =>
    have h := ih (b.erase y)
    have h' := length_erase_le b y
    rw [List.diff_cons, List.length_cons]
    omega

/-- A word within reach of a line of the examples has at most eight characters. -/
theorem ex_reach {p : Params} (hp : p.maxAnagramDistance = .absolute 3) {w : Weights} {l : List Char}
    (hl : l ∈ ["ab".toList, "ab b".toList, "bb".toList]) {k : Nat} (hk : 7 < k) {s : Rat} :
    ¬ Near exText [["a".toList, "A".toList], ["b".toList]] w p l (List.replicate k 'a') s := by
  rintro ⟨a, b, qs, ns, d, na, ne, e1, e2, _, _, h5, h6, _⟩
  have hb : b = List.replicate k 0 := by
    refine encodes_unique e2 ?_
    clear * -
    induction k with
    | zero => exact .nil
    | succ k ih => exact .hit (e := ['a']) ⟨⟨[], [['A']], rfl, by simp⟩, ⟨_, rfl⟩, by simp⟩ (by simp) ih
  have h1 := encodes_length e1
  have h2 : ∀ l ∈ ["ab".toList, "ab b".toList, "bb".toList], l.length ≤ 4 := by decide
  have h3 := h2 l hl
  rw [hp] at h5
  have h4 : na ≤ 3 := h5.1.1
  unfold bagDiff at h6
  have h7 := length_diff_le b a
  have h8 : b.length = k := by rw [hb, List.length_replicate]
  omega

/-- The frequencies of a lexicon without repeated words. -/
theorem ex_wordFreq {es : List (List Char × Nat)} (hn : (es.map Prod.fst).Nodup) (t : List Char) (n : Nat) :
    WordFreq [es.map fun e => (e.1, some e.2, ({} : VocabParams))] t n ↔ (t, n) ∈ es := by
  have hall : ∀ k, (∃ a ∈ [es.map fun e => (e.1, some e.2, ({} : VocabParams))].flatten,
      a.1 = t ∧ a.2.1.getD 1 = k) ↔ (t, k) ∈ es := by
    intro k
    rw [List.flatten_singleton]
    constructor
    · rintro ⟨a, ha, rfl, rfl⟩
      obtain ⟨e, he, rfl⟩ := List.mem_map.mp ha
      exact he
    · intro h
      exact ⟨_, List.mem_map_of_mem h, rfl, rfl⟩
  unfold WordFreq
  simp only [hall]
  constructor
  · exact fun h => h.1
  · intro h
    refine ⟨h, fun k hk => ?_⟩
    have := List.inj_on_of_nodup_map hn h hk rfl
    exact (Prod.ext_iff.mp this).2.ge

/-- `--max-matches 0 --cutoff-threshold 0.0 --score-threshold 0.0 --freq-ranking 1.0` -/
abbrev exQuery6 : CommandLine :=
  { exQuery2 with given := exQuery2.given ++ [(.freqRanking, "1.0".toList)] }

theorem exPlain6 {ls : List (Option (List Char))} {es : List (List Char × Nat)}
    (hes : List.Forall₂ (VocabLine {}) (nonEmpty ls) es)
    (hsp : ∀ e ∈ es, (e.1.countP (· == ' ')) % 256 ≠ 255 ∧ e.1.length < 65536)
    (hsum : (es.map Prod.snd).sum < 2 ^ 32) :
    PlainQuery (exToolW ls) exQuery6 [['q'], ['-']] [["a".toList, "A".toList], ["b".toList]]
      [es.map fun e => (e.1, some e.2, {})] ⟨1 / 2, 1 / 8, 1 / 8, 1 / 8, 1 / 8⟩
      (exNumbers exQuery6).variant ["ab".toList, "ab b".toList, "bb".toList] :=
  exPlain hes hsp hsum rfl (by decide) (by decide) (by decide) (by constructor <;> decide) rfl
    (by decide +kernel) rfl (exSome exTextParams (by decide +kernel)) (.inl (by decide +kernel))
    (by decide +kernel) rfl

/-- All weights doubled. -/
abbrev exQuery7 : CommandLine :=
  { exQuery2 with given := exQuery2.given ++ [(.weightLd, "1.0".toList), (.weightLcs, "0.25".toList),
      (.weightPrefix, "0.25".toList), (.weightSuffix, "0.25".toList), (.weightCase, "0.25".toList)] }

theorem exPlain7 {ls : List (Option (List Char))} {es : List (List Char × Nat)}
    (hes : List.Forall₂ (VocabLine {}) (nonEmpty ls) es)
    (hsp : ∀ e ∈ es, (e.1.countP (· == ' ')) % 256 ≠ 255 ∧ e.1.length < 65536)
    (hsum : (es.map Prod.snd).sum < 2 ^ 32) :
    PlainQuery (exToolW ls) exQuery7 [['q'], ['-']] [["a".toList, "A".toList], ["b".toList]]
      [es.map fun e => (e.1, some e.2, {})] (scaled 2 ⟨1 / 2, 1 / 8, 1 / 8, 1 / 8, 1 / 8⟩)
      (exNumbers exQuery7).variant ["ab".toList, "ab b".toList, "bb".toList] := by
  have hc : Accepted exQuery7 := accepted_of (by decide) (by decide)
  obtain ⟨q, hq⟩ : ∃ q, exQuery7.searchParameters exParse exParse = .ok q := ⟨_, rfl⟩
  obtain ⟨r1, r2⟩ := (command_line_parameters_partial ex_noSemicolon hc q).mp hq
  have hn : q.finite = some (exNumbers exQuery7) := by
    cases hq
    exact exSome exTextParams (by decide +kernel)
  refine exPlainW hes hsp hsum rfl (by decide) (by decide) (by decide) (by constructor <;> decide)
    ⟨(command_line_weights hc _ _ _ _ _).mp (by decide +kernel), by decide +kernel,
      ⟨_, r1, r2, params_finite_iff.mp hn⟩,
      .inl (by decide +kernel), .inl rfl⟩ (by decide +kernel) rfl

theorem exVocab4 : List.Forall₂ (VocabLine {}) (nonEmpty exLex4)
    [("ab".toList, 7), ("ba".toList, 16), ("a".toList, 1)] :=
  .cons (exVocab (f := ['7']) (by decide) (by decide)) (.cons (exVocab (f := "16".toList) (by decide)
    (by decide)) (.cons (exVocab (f := ['1']) (by decide) (by decide)) .nil))

/-- With a frequent long word. -/
abbrev exLex7 : List (Option (List Char)) := exLex4 ++ [some "aaaaaaaa\t1000".toList]

/-- The frequent word `aaaaaaaa` is out of reach of all lines: nothing changes. -/
example : SameSuggestions (exToolW exLex4) exQuery6 [['q'], ['-']] (exToolW exLex7) exQuery6 [['q'], ['-']]
    (exNumbers exQuery6).variant ["ab".toList, "ab b".toList, "bb".toList] := by
  refine out_of_reach_irrelevant (exPlain6 exVocab4 (by decide) (by decide))
    (exPlain6 (es := [("ab".toList, 7), ("ba".toList, 16), ("a".toList, 1), ("aaaaaaaa".toList, 1000)])
      (.cons (exVocab (f := ['7']) (by decide) (by decide)) (.cons (exVocab (f := "16".toList) (by decide)
        (by decide)) (.cons (exVocab (f := ['1']) (by decide) (by decide)) (.cons (exVocab (f := "1000".toList)
        (by decide) (by decide)) .nil)))) (by decide) (by decide)) rfl ?_ (.inr (by decide +kernel))
  intro l hl t s hs n
  rw [ex_wordFreq (by decide), ex_wordFreq (by decide)]
  simp only [List.mem_cons, List.not_mem_nil, or_false]
  constructor
  · rintro (h | h | h)
    · exact .inl h
    · exact .inr (.inl h)
    · exact .inr (.inr (.inl h))
  · rintro (h | h | h | h)
    · exact .inl h
    · exact .inr (.inl h)
    · exact .inr (.inr h)
    · have e : t = List.replicate 8 'a' := (Prod.ext_iff.mp h).1
      rw [e] at hs
      exact absurd hs (ex_reach (k := 8) rfl hl (by decide))

example : (exToolW exLex4).main exQuery6 [['q'], ['-']] = (exToolW exLex7).main exQuery6 [['q'], ['-']] := by
  decide +kernel

/-- Without frequency ranking, with other frequencies. -/
example : SameSuggestions (exToolW exLex4) exQuery2 [['q'], ['-']]
    (exToolW [some "a\t3".toList, some "ba\t1".toList, some "ab\t7".toList]) exQuery2 [['q'], ['-']]
    (exNumbers exQuery2).variant ["ab".toList, "ab b".toList, "bb".toList] := by
  refine frequencies_break_ties (exPlain2 exVocab4 (by decide) (by decide))
    (exPlain2 (es := [("a".toList, 3), ("ba".toList, 1), ("ab".toList, 7)])
      (.cons (exVocab (f := ['3']) (by decide) (by decide)) (.cons (exVocab (f := ['1']) (by decide)
        (by decide)) (.cons (exVocab (f := ['7']) (by decide) (by decide)) .nil)))
      (by decide) (by decide)) rfl ?_ (by decide +kernel)
  intro l hl t s hs
  simp only [List.flatten_singleton, List.map_cons, List.map_nil, List.mem_cons, List.not_mem_nil,
    or_false, exists_eq_or_imp, exists_eq_left]
  tauto

/-- With frequency ranking and all frequencies doubled. -/
example : SameSuggestions (exToolW exLex4) exQuery6 [['q'], ['-']]
    (exToolW [some "a\t2".toList, some "ba\t32".toList, some "ab\t14".toList]) exQuery6 [['q'], ['-']]
    (exNumbers exQuery6).variant ["ab".toList, "ab b".toList, "bb".toList] := by
  refine relative_frequencies_count (m := 2) (exPlain6 exVocab4 (by decide) (by decide))
    (exPlain6 (es := [("a".toList, 2), ("ba".toList, 32), ("ab".toList, 14)])
      (.cons (exVocab (f := ['2']) (by decide) (by decide)) (.cons (exVocab (f := "32".toList) (by decide)
        (by decide)) (.cons (exVocab (f := "14".toList) (by decide) (by decide)) .nil)))
      (by decide) (by decide)) rfl (by decide) (fun n => by exact Nat.cast_mul 2 n) ?_ (.inr (by decide +kernel))
  intro l hl t s hs n
  simp only [ex_wordFreq (es := [("a".toList, 2), ("ba".toList, 32), ("ab".toList, 14)]) (by decide),
    ex_wordFreq (es := [("ab".toList, 7), ("ba".toList, 16), ("a".toList, 1)]) (by decide),
    List.mem_cons, List.not_mem_nil, or_false, Prod.mk.injEq]
  constructor
  · rintro (⟨h, rfl⟩ | ⟨h, rfl⟩ | ⟨h, rfl⟩)
    · exact ⟨1, rfl, .inr (.inr ⟨h, rfl⟩)⟩
    · exact ⟨16, rfl, .inr (.inl ⟨h, rfl⟩)⟩
    · exact ⟨7, rfl, .inl ⟨h, rfl⟩⟩
  · rintro ⟨k, rfl, (⟨h, rfl⟩ | ⟨h, rfl⟩ | ⟨h, rfl⟩)⟩
    · exact .inr (.inr ⟨h, rfl⟩)
    · exact .inr (.inl ⟨h, rfl⟩)
    · exact .inl ⟨h, rfl⟩

theorem ex_ordinary : (2 : Rat) ^ (-1000 : Int) ≤ 1 / 2 ∧ (2 : Rat) ^ (-1000 : Int) ≤ 1 / 8 := by
  have h : (2 : Rat) ^ (-1000 : Int) ≤ 2 ^ (-3 : Int) := zpow_le_zpow_right₀ (by norm_num) (by norm_num)
  have e : (2 : Rat) ^ (-3 : Int) = 1 / 8 := by norm_num
  rw [e] at h
  exact ⟨h.trans (by norm_num), h⟩

/-- All weights doubled. -/
example : SameSuggestions (exToolW exLex4) exQuery2 [['q'], ['-']] (exToolW exLex4) exQuery7 [['q'], ['-']]
    (exNumbers exQuery2).variant ["ab".toList, "ab b".toList, "bb".toList] :=
  relative_weights_count (q := 2) (exPlain2 exVocab4 (by decide) (by decide))
    (exPlain7 exVocab4 (by decide) (by decide)) rfl (by norm_num) (exact_safe 2)
    ⟨.inr ex_ordinary.1, .inr ex_ordinary.2, .inr ex_ordinary.2, .inr ex_ordinary.2, .inr ex_ordinary.2⟩
    (fun _ _ _ _ _ _ => Iff.rfl) (.inl (by decide +kernel))

end Verif.Props
