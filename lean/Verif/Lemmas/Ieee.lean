import Verif.Spec.Ieee
import Verif.Lemmas.Score

/-!
# Errors of computations with floating point numbers
-/
namespace Verif.Lemmas

open Verif.Spec Verif.Model

/-- Every operation has a relative error of at most `u`, up to `η`. -/
def Accurate (r : Rounding) (u η : Rat) : Prop := ∀ x, |r.rnd x - x| ≤ u * |x| + η

theorem accurate_binary (prec : Nat) (emin : Int) (hp : 1 ≤ prec) (he : emin - (prec - 1) ≤ 0) :
    Accurate (.binary prec emin hp he) (2 ^ (-(prec : Int))) (2 ^ (emin - prec)) := by
  intro x
  refine (roundBinary_close prec emin x).trans ?_
  have h1 := two_zpow_pos (emin - prec)
  have h2 : 0 ≤ |x| * 2 ^ (-(prec : Int)) := mul_nonneg (abs_nonneg x) (two_zpow_pos _).le
  rw [mul_comm] at h2 ⊢
  exact max_le (by linarith) (by linarith)

/-- The quotient of numbers that are known up to an error. -/
theorem quotient_close {N W N' W' : Rat} {e f : Rat} (hN : 0 ≤ N) (hNW : N ≤ W) (hW : 0 < W) (hW' : W ≤ 2 * W')
    (h1 : |N' - N| ≤ e) (h2 : |W' - W| ≤ f) : |N' / W' - N / W| ≤ 2 * (e + f) / W := by
  have hp : 0 < W' := by linarith
  have key : N' / W' - N / W = ((N' - N) * W - N * (W' - W)) / (W' * W) := by
    field_simp
    ring
  rw [key, abs_div, abs_of_pos (mul_pos hp hW), div_le_div_iff₀ (mul_pos hp hW) hW]
  have h3 : |(N' - N) * W - N * (W' - W)| ≤ (e + f) * W := by
    refine (abs_sub _ _).trans ?_
    rw [abs_mul, abs_mul, abs_of_pos hW, abs_of_nonneg hN]
    have := abs_nonneg (W' - W)
    nlinarith
  have h4 : 0 ≤ e + f := by linarith [abs_nonneg (N' - N), abs_nonneg (W' - W)]
  calc _ ≤ (e + f) * W * W := mul_le_mul_of_nonneg_right h3 hW.le
    _ ≤ (e + f) * (2 * W') * W := by
      refine mul_le_mul_of_nonneg_right (mul_le_mul_of_nonneg_left hW' h4) hW.le
    _ = 2 * (e + f) * (W' * W) := by ring

/-- The sum of five numbers, from left to right. -/
theorem sum_close {r : Rounding} {u η W : Rat} (hacc : Accurate r u η) (hu : 0 ≤ u) (hu' : u ≤ 1 / 1000)
    (hηW : η ≤ u * W) (hW : 0 ≤ W) {a b c d e : Rat} (ha : 0 ≤ a) (hb : 0 ≤ b) (hc : 0 ≤ c)
    (hd : 0 ≤ d) (he : 0 ≤ e) (hs : a + b + c + d + e ≤ W) :
    |r.rnd (r.rnd (r.rnd (r.rnd (a + b) + c) + d) + e) - (a + b + c + d + e)| ≤ 12 * (u * W) := by
  have huW : 0 ≤ u * W := mul_nonneg hu hW
  have hsm : u * W ≤ W / 1000 := by nlinarith
  have step : ∀ y, 0 ≤ y → y ≤ 2 * W → |r.rnd y - y| ≤ 3 * (u * W) := by
    intro y h0 h1
    refine (hacc y).trans ?_
    rw [abs_of_nonneg h0]
    nlinarith
  have h1 := abs_le.mp (step (a + b) (by linarith) (by linarith))
  have n1 : 0 ≤ r.rnd (a + b) := rnd_nonneg r (by linarith)
  generalize r.rnd (a + b) = s1 at *
  have h2 := abs_le.mp (step (s1 + c) (by linarith) (by linarith))
  have n2 : 0 ≤ r.rnd (s1 + c) := rnd_nonneg r (by linarith)
  generalize r.rnd (s1 + c) = s2 at *
  have h3 := abs_le.mp (step (s2 + d) (by linarith) (by linarith))
  have n3 : 0 ≤ r.rnd (s2 + d) := rnd_nonneg r (by linarith)
  generalize r.rnd (s2 + d) = s3 at *
  have h4 := abs_le.mp (step (s3 + e) (by linarith) (by linarith))
  rw [abs_le]
  constructor <;> linarith

/-- A weighted part of the score. -/
theorem part_close {r : Rounding} {u η : Rat} (hacc : Accurate r u η) (hu : 0 ≤ u) {w a a' : Rat} (hw : 0 ≤ w)
    (ha' : 0 ≤ a' ∧ a' ≤ 1) {k : Rat} (h : |a' - a| ≤ k * u) :
    |r.rnd (w * a') - w * a| ≤ (k + 1) * (u * w) + η := by
  have h1 := hacc (w * a')
  rw [abs_of_nonneg (mul_nonneg hw ha'.1)] at h1
  have h2 : |w * a' - w * a| ≤ w * (k * u) := by
    rw [← mul_sub, abs_mul, abs_of_nonneg hw]
    exact mul_le_mul_of_nonneg_left h hw
  have h3 : u * (w * a') ≤ u * w := by
    refine mul_le_mul_of_nonneg_left ?_ hu
    nlinarith [ha'.2]
  have h4 := abs_add_le (r.rnd (w * a') - w * a') (w * a' - w * a)
  rw [sub_add_sub_cancel] at h4
  linarith

theorem similarity_close {r : Rounding} {u η : Rat} (hacc : Accurate r u η) (hu : 0 ≤ u) (hu' : u ≤ 1 / 1000)
    (hη : 0 ≤ η) (hηu : η ≤ u) {w : Weights} (hw : WeightsOk r w)
    (hηW : η ≤ u * (w.ld + w.lcs + w.pre + w.suf + w.case)) {len : Nat} (hlen : 0 < len) {d : Distance}
    (h1 : d.lcs ≤ len) (h2 : d.prefixlen ≤ len) (h3 : d.suffixlen ≤ len) :
    |similarity r w len d - exactScore w len d| ≤ 128 * u := by
  have hl : (0 : Rat) < len := by exact_mod_cast hlen
  obtain ⟨⟨w1, v1⟩, ⟨w2, v2⟩, ⟨w3, v3⟩, ⟨w4, v4⟩, ⟨w5, v5⟩, hs⟩ := hw
  have ratio : ∀ k : Nat, k ≤ len → (0 ≤ (k : Rat) / len ∧ (k : Rat) / len ≤ 1) ∧
      (0 ≤ r.rnd (k / len) ∧ r.rnd (k / len) ≤ 1) ∧ |r.rnd (k / len) - k / len| ≤ 2 * u := by
    intro k hk
    have a : 0 ≤ (k : Rat) / len ∧ (k : Rat) / len ≤ 1 := ⟨by positivity, by
      rw [div_le_one hl]; exact_mod_cast hk⟩
    refine ⟨a, ratio_bounds r hlen hk, (hacc _).trans ?_⟩
    rw [abs_of_nonneg a.1]
    nlinarith [a.2]
  have hd : (0 ≤ (if d.ld ≤ len then 1 - (d.ld : Rat) / len else 0) ∧
        (if d.ld ≤ len then 1 - (d.ld : Rat) / len else 0) ≤ 1) ∧
      (0 ≤ (if d.ld > len then (0 : Rat) else r.rnd (1 - r.rnd (d.ld / len))) ∧
        (if d.ld > len then (0 : Rat) else r.rnd (1 - r.rnd (d.ld / len))) ≤ 1) ∧
      |(if d.ld > len then (0 : Rat) else r.rnd (1 - r.rnd (d.ld / len))) -
        (if d.ld ≤ len then 1 - (d.ld : Rat) / len else 0)| ≤ 4 * u := by
    by_cases h : d.ld ≤ len
    · rw [if_pos h, if_neg (by omega)]
      obtain ⟨a, b, c⟩ := ratio d.ld h
      have e := hacc (1 - r.rnd (d.ld / len))
      rw [abs_of_nonneg (by linarith : 0 ≤ 1 - r.rnd (d.ld / len))] at e
      refine ⟨⟨by linarith, by linarith⟩, ⟨rnd_nonneg r (by linarith), rnd_le_one r (by linarith)⟩, ?_⟩
      have e' : u * (1 - r.rnd (d.ld / len)) ≤ u := by nlinarith [b.1]
      rw [abs_le] at c e ⊢
      constructor <;> linarith
    · rw [if_neg h, if_pos (by omega)]
      exact ⟨⟨le_rfl, zero_le_one⟩, ⟨le_rfl, zero_le_one⟩, by rw [sub_zero, abs_zero]; linarith⟩
  obtain ⟨x2, r2, e2⟩ := ratio d.lcs h1
  obtain ⟨x3, r3, e3⟩ := ratio d.prefixlen h2
  obtain ⟨x4, r4, e4⟩ := ratio d.suffixlen h3
  obtain ⟨x1, r1, e1⟩ := hd
  unfold similarity exactScore
  simp only
  generalize (if d.ld > len then (0 : Rat) else r.rnd (1 - r.rnd (d.ld / len))) = a1 at *
  generalize (if d.ld ≤ len then 1 - (d.ld : Rat) / len else 0) = b1 at *
  generalize r.rnd ((d.lcs : Rat) / len) = a2 at *
  generalize r.rnd ((d.prefixlen : Rat) / len) = a3 at *
  generalize r.rnd ((d.suffixlen : Rat) / len) = a4 at *
  generalize (d.lcs : Rat) / len = b2 at *
  generalize (d.prefixlen : Rat) / len = b3 at *
  generalize (d.suffixlen : Rat) / len = b4 at *
  have hc : 0 ≤ (if d.samecase then w.case else 0) ∧ (if d.samecase then w.case else 0) ≤ w.case := by
    split
    · exact ⟨w5, le_rfl⟩
    · exact ⟨le_rfl, w5⟩
  generalize (if d.samecase then w.case else 0) = k at *
  have p1 := part_close hacc hu w1 r1 e1
  have p2 := part_close hacc hu w2 r2 e2
  have p3 := part_close hacc hu w3 r3 e3
  have p4 := part_close hacc hu w4 r4 e4
  have up : ∀ {v a : Rat}, 0 ≤ v → r.rnd v = v → 0 ≤ a ∧ a ≤ 1 → 0 ≤ r.rnd (v * a) ∧ r.rnd (v * a) ≤ v := by
    intro v a hv he ha
    refine ⟨rnd_nonneg r (mul_nonneg hv ha.1), ?_⟩
    have := r.mono (v * a) v (by nlinarith [ha.2])
    rwa [he] at this
  have q1 := up w1 v1 r1
  have q2 := up w2 v2 r2
  have q3 := up w3 v3 r3
  have q4 := up w4 v4 r4
  generalize hW : w.ld + w.lcs + w.pre + w.suf + w.case = W at *
  have hW0 : 0 ≤ W := by linarith only [w1, w2, w3, w4, w5, hW]
  have hWpos : 0 < W := by
    rcases hW0.lt_or_eq with h | h
    · exact h
    · exfalso
      have z : w.ld = 0 ∧ w.lcs = 0 ∧ w.pre = 0 ∧ w.suf = 0 ∧ w.case = 0 := by
        refine ⟨?_, ?_, ?_, ?_, ?_⟩ <;> linarith only [w1, w2, w3, w4, w5, hW, h]
      unfold Weights.sum at hs
      simp only [z, add_zero, r.zero] at hs
      exact lt_irrefl _ hs
  have huW : 0 ≤ u * W := mul_nonneg hu hW0
  have s1 := sum_close hacc hu hu' hηW hW0 q1.1 q2.1 q3.1 q4.1 hc.1
    (by linarith only [q1.2, q2.2, q3.2, q4.2, hc.2, hW])
  have s2 : |w.sum r - W| ≤ 12 * (u * W) := by
    have := sum_close hacc hu hu' hηW hW0 w1 w2 w3 w4 w5 hW.le
    rw [hW] at this
    exact this
  generalize r.rnd (r.rnd (r.rnd (r.rnd (r.rnd (w.ld * a1) + r.rnd (w.lcs * a2)) + r.rnd (w.pre * a3)) +
    r.rnd (w.suf * a4)) + k) = N' at *
  generalize r.rnd (w.ld * a1) = t1 at *
  generalize r.rnd (w.lcs * a2) = t2 at *
  generalize r.rnd (w.pre * a3) = t3 at *
  generalize r.rnd (w.suf * a4) = t4 at *
  generalize w.sum r = W' at *
  have m1 := mul_nonneg w1 x1.1
  have m2 := mul_nonneg w2 x2.1
  have m3 := mul_nonneg w3 x3.1
  have m4 := mul_nonneg w4 x4.1
  have n1 := mul_le_of_le_one_right w1 x1.2
  have n2 := mul_le_of_le_one_right w2 x2.2
  have n3 := mul_le_of_le_one_right w3 x3.2
  have n4 := mul_le_of_le_one_right w4 x4.2
  have hsplit : u * W = u * w.ld + u * w.lcs + u * w.pre + u * w.suf + u * w.case := by rw [← hW]; ring
  have y1 := mul_nonneg hu w1
  have y2 := mul_nonneg hu w2
  have y3 := mul_nonneg hu w3
  have y4 := mul_nonneg hu w4
  have y5 := mul_nonneg hu w5
  have hN : |N' - (w.ld * b1 + w.lcs * b2 + w.pre * b3 + w.suf * b4 + k)| ≤ 21 * (u * W) := by
    rw [abs_le] at s1 p1 p2 p3 p4 ⊢
    constructor
    · linarith only [s1.1, p1.1, p2.1, p3.1, p4.1, hsplit, hηW, y1, y2, y3, y4, y5]
    · linarith only [s1.2, p1.2, p2.2, p3.2, p4.2, hsplit, hηW, y1, y2, y3, y4, y5]
  have hsm : u * W ≤ W / 1000 := by
    have := mul_le_mul_of_nonneg_right hu' hW0
    linarith only [this]
  have hq := quotient_close (N := w.ld * b1 + w.lcs * b2 + w.pre * b3 + w.suf * b4 + k)
    (by linarith only [m1, m2, m3, m4, hc.1]) (by linarith only [n1, n2, n3, n4, hc.2, hW]) hWpos
    (by linarith only [(abs_le.mp s2).1, hsm, hWpos]) hN s2
  have hq' : 2 * (21 * (u * W) + 12 * (u * W)) / W = 66 * u := by
    field_simp
    ring
  rw [hq'] at hq
  have hX : 0 ≤ (w.ld * b1 + w.lcs * b2 + w.pre * b3 + w.suf * b4 + k) / W ∧
      (w.ld * b1 + w.lcs * b2 + w.pre * b3 + w.suf * b4 + k) / W ≤ 1 := by
    refine ⟨div_nonneg (by linarith only [m1, m2, m3, m4, hc.1]) hW0, ?_⟩
    rw [div_le_one hWpos]
    linarith only [n1, n2, n3, n4, hc.2, hW]
  generalize (w.ld * b1 + w.lcs * b2 + w.pre * b3 + w.suf * b4 + k) / W = X at *
  generalize N' / W' = Z at *
  have hr := hacc Z
  have hb : |Z| ≤ 2 := by
    rw [abs_le] at hq ⊢
    constructor
    · linarith only [hq.1, hX.1, hu']
    · linarith only [hq.2, hX.2, hu']
  have hz : u * |Z| ≤ 2 * u := by
    have := mul_le_mul_of_nonneg_left hb hu
    linarith only [this]
  rw [abs_le] at hr hq ⊢
  constructor
  · linarith only [hr.1, hq.1, hz, hηu, hu]
  · linarith only [hr.2, hq.2, hz, hηu, hu]

end Verif.Lemmas
