import Verif.Model.Float
import Mathlib.Data.Int.Log
import Mathlib.Tactic.Positivity
import Mathlib.Tactic.Ring
import Mathlib.Tactic.Linarith
import Mathlib.Tactic.FieldSimp
import Mathlib.Algebra.Order.Round

/-!
# The floating point formats of IEEE 754

Rounding to the nearest number of a binary format, with ties to the even one, as IEEE 754 prescribes for the
arithmetic of `f32` and `f64` (which the code uses for thresholds, src/lib.rs:984-1006, for weights and
scores, src/types.rs:69-73 and src/lib.rs:1432-1453, and for the costs of sequences, src/lib.rs:2182-2243).
Exponents are not bounded above: a result that is greater than the greatest number of the format is not made
infinite.
-/
namespace Verif.Model

/-- The nearest integer, and the even one of two.  Part of the arithmetic of src/lib.rs:1432-1453. -/
def nearestEven (q : Rat) : Int :=
  if Int.fract q < 1 / 2 then ⌊q⌋
  else if 1 / 2 < Int.fract q then ⌊q⌋ + 1
  else if Even ⌊q⌋ then ⌊q⌋ else ⌊q⌋ + 1

theorem nearestEven_le {q : Rat} {n : Int} (h : q ≤ n) : nearestEven q ≤ n := by
  unfold nearestEven
  have hf := Int.floor_add_fract q
  have h0 := Int.fract_nonneg q
  have hle : ⌊q⌋ ≤ n := by
    have := Int.floor_le q
    exact_mod_cast this.trans h
  by_cases h1 : Int.fract q < 1 / 2
  · rw [if_pos h1]; exact hle
  · have : ⌊q⌋ + 1 ≤ n := by
      have : (⌊q⌋ : Rat) < n := by linarith
      have : ⌊q⌋ < n := by exact_mod_cast this
      omega
    split_ifs <;> omega

theorem le_nearestEven {q : Rat} {n : Int} (h : (n : Rat) ≤ q) : n ≤ nearestEven q := by
  have : n ≤ ⌊q⌋ := Int.le_floor.mpr h
  unfold nearestEven
  split_ifs <;> omega

theorem nearestEven_int (n : Int) : nearestEven n = n :=
  le_antisymm (nearestEven_le le_rfl) (le_nearestEven le_rfl)

theorem nearestEven_mono {a b : Rat} (h : a ≤ b) : nearestEven a ≤ nearestEven b := by
  have hfl := Int.floor_le_floor h
  rcases hfl.lt_or_eq with hlt | he
  · have h1 : a ≤ (⌊b⌋ : Int) := by
      have := Int.lt_floor_add_one a
      have h2 : ((⌊a⌋ : Int) : Rat) + 1 ≤ (⌊b⌋ : Int) := by exact_mod_cast hlt
      linarith
    exact (nearestEven_le h1).trans (le_nearestEven (Int.floor_le b))
  · have ha := Int.floor_add_fract a
    have hb := Int.floor_add_fract b
    have hf : Int.fract a ≤ Int.fract b := by
      have : ((⌊a⌋ : Int) : Rat) = (⌊b⌋ : Int) := by rw [he]
      linarith
    unfold nearestEven
    rw [he]
    split_ifs <;> first | omega | (exfalso; linarith)

theorem nearestEven_close (q : Rat) : |(nearestEven q : Rat) - q| ≤ 1 / 2 := by
  have hf := Int.floor_add_fract q
  have h0 := Int.fract_nonneg q
  have h1 := Int.fract_lt_one q
  unfold nearestEven
  rw [abs_le]
  split_ifs <;> push_cast <;> constructor <;> linarith

theorem nearestEven_neg (q : Rat) : nearestEven (-q) = -nearestEven q := by
  by_cases hz : Int.fract q = 0
  · have : q = (⌊q⌋ : Int) := by
      have := Int.floor_add_fract q
      linarith
    rw [this, nearestEven_int, ← Int.cast_neg, nearestEven_int]
  · have hn : Int.fract (-q) = 1 - Int.fract q := Int.fract_neg hz
    have hfl : ⌊-q⌋ = -⌊q⌋ - 1 := by
      have h1 := Int.floor_add_fract q
      have h2 := Int.floor_add_fract (-q)
      have : ((⌊-q⌋ : Int) : Rat) = ((-⌊q⌋ - 1 : Int) : Rat) := by push_cast; linarith
      exact_mod_cast this
    have hev : Even (-⌊q⌋ - 1) ↔ ¬ Even ⌊q⌋ := by
      rw [show -⌊q⌋ - 1 = -(⌊q⌋ + 1) by ring, even_neg, Int.even_add_one]
    unfold nearestEven
    rw [hn, hfl]
    simp only [hev]
    split_ifs <;> first | omega | (exfalso; linarith)

/-- The exponent of the last place of numbers as great as `x`, in a format with `prec` binary places and the least
normal exponent `emin`.  Part of the arithmetic of src/lib.rs:1432-1453. -/
def lastPlace (prec : Nat) (emin : Int) (x : Rat) : Int := max (Int.log 2 |x|) emin - (prec - 1)

/-- The nearest number of the format: the result of an operation, for its exact result.  Models the arithmetic of
src/lib.rs:1432-1453. -/
def roundBinary (prec : Nat) (emin : Int) (x : Rat) : Rat :=
  nearestEven (x / 2 ^ lastPlace prec emin x) * 2 ^ lastPlace prec emin x

theorem two_zpow_pos (e : Int) : (0 : Rat) < 2 ^ e := zpow_pos (by norm_num) e

theorem lastPlace_zero (prec : Nat) (emin : Int) (x : Rat) : emin - (prec - 1) ≤ lastPlace prec emin x := by
  unfold lastPlace
  have := le_max_right (Int.log 2 |x|) emin
  omega

/-- In units of the last place, a number is less than `2 ^ prec`. -/
theorem abs_lt_units (prec : Nat) (emin : Int) (x : Rat) : |x| < 2 ^ (lastPlace prec emin x + prec) := by
  have h1 := Int.lt_zpow_succ_log_self (b := 2) one_lt_two |x|
  refine h1.trans_le ?_
  have : Int.log 2 |x| + 1 ≤ lastPlace prec emin x + prec := by
    unfold lastPlace
    have := le_max_left (Int.log 2 |x|) emin
    omega
  exact_mod_cast zpow_le_zpow_right₀ (by norm_num : (1 : Rat) ≤ 2) this

theorem roundBinary_neg (prec : Nat) (emin : Int) (x : Rat) :
    roundBinary prec emin (-x) = -roundBinary prec emin x := by
  unfold roundBinary
  have : lastPlace prec emin (-x) = lastPlace prec emin x := by unfold lastPlace; rw [abs_neg]
  rw [this, neg_div, nearestEven_neg]
  push_cast
  ring

/-- Numbers of the format are not changed. -/
theorem roundBinary_exact {prec : Nat} (hp : 1 ≤ prec) {emin : Int} {n e : Int} (hn : |n| ≤ 2 ^ prec)
    (he : emin - (prec - 1) ≤ e) : roundBinary prec emin (n * 2 ^ e) = n * 2 ^ e := by
  by_cases hz : n = 0
  · subst hz
    have := nearestEven_int 0
    unfold roundBinary
    simp only [Int.cast_zero, zero_mul, zero_div] at this ⊢
    rw [this]
    simp
  have key : ∃ k : Int, (n : Rat) * 2 ^ e = k * 2 ^ lastPlace prec emin (n * 2 ^ e) := by
    have habs : |(n : Rat) * 2 ^ e| = (|n| : Int) * 2 ^ e := by
      rw [abs_mul, abs_of_pos (two_zpow_pos e)]
      push_cast
      rfl
    have hpos : 0 < |(n : Rat) * 2 ^ e| := by
      rw [abs_pos]
      exact mul_ne_zero (by exact_mod_cast hz) (two_zpow_pos e).ne'
    by_cases hlt : |n| < 2 ^ prec
    · have hle : lastPlace prec emin (n * 2 ^ e) ≤ e := by
        have hlog : Int.log 2 |(n : Rat) * 2 ^ e| < e + prec := by
          rw [← Int.lt_zpow_iff_log_lt one_lt_two hpos, habs]
          push_cast
          rw [zpow_add₀ two_ne_zero, mul_comm]
          refine mul_lt_mul_of_pos_left ?_ (two_zpow_pos e)
          rw [zpow_natCast]
          exact_mod_cast hlt
        unfold lastPlace
        omega
      obtain ⟨d, hd⟩ := Int.eq_ofNat_of_zero_le (sub_nonneg.mpr hle)
      refine ⟨n * 2 ^ d, ?_⟩
      have : e = d + lastPlace prec emin (n * 2 ^ e) := by omega
      conv_lhs => rw [this, zpow_add₀ two_ne_zero, zpow_natCast]
      push_cast
      ring
    · have heq : |n| = 2 ^ prec := le_antisymm hn (not_lt.mp hlt)
      have hlog : Int.log 2 |(n : Rat) * 2 ^ e| = e + prec := by
        rw [habs, heq]
        have : (((2 : Int) ^ prec : Int) : Rat) * 2 ^ e = ((2 : Nat) : Rat) ^ (e + prec) := by
          push_cast
          rw [zpow_add₀ two_ne_zero, zpow_natCast, mul_comm]
        rw [this, Int.log_zpow one_lt_two]
      have hl : lastPlace prec emin (n * 2 ^ e) = e + 1 := by
        unfold lastPlace
        rw [hlog]
        omega
      rw [hl]
      obtain ⟨q, rfl⟩ : ∃ q, prec = q + 1 := ⟨prec - 1, by omega⟩
      rcases (abs_eq (by positivity)).mp heq with h | h
      · refine ⟨2 ^ q, ?_⟩
        rw [h, zpow_add₀ two_ne_zero]
        push_cast
        ring
      · refine ⟨-2 ^ q, ?_⟩
        rw [h, zpow_add₀ two_ne_zero]
        push_cast
        ring
  obtain ⟨k, hk⟩ := key
  unfold roundBinary
  generalize lastPlace prec emin (n * 2 ^ e) = l at hk
  rw [hk, mul_div_cancel_right₀ _ (two_zpow_pos l).ne', nearestEven_int]

theorem roundBinary_nonneg (prec : Nat) (emin : Int) {x : Rat} (hx : 0 ≤ x) : 0 ≤ roundBinary prec emin x := by
  unfold roundBinary
  have : (0 : Int) ≤ nearestEven (x / 2 ^ lastPlace prec emin x) :=
    le_nearestEven (by push_cast; exact div_nonneg hx (two_zpow_pos _).le)
  have h : (0 : Rat) ≤ (nearestEven (x / 2 ^ lastPlace prec emin x) : Int) := by exact_mod_cast this
  exact mul_nonneg h (two_zpow_pos _).le

theorem roundBinary_units (prec : Nat) (emin : Int) (x : Rat) :
    |nearestEven (x / 2 ^ lastPlace prec emin x)| ≤ 2 ^ prec := by
  have h := abs_lt_units prec emin x
  rw [zpow_add₀ two_ne_zero, zpow_natCast] at h
  have hp := two_zpow_pos (lastPlace prec emin x)
  rw [abs_lt] at h
  rw [abs_le]
  constructor
  · refine le_nearestEven ?_
    rw [le_div_iff₀ hp]
    push_cast
    linarith
  · refine nearestEven_le ?_
    rw [div_le_iff₀ hp]
    push_cast
    linarith

theorem roundBinary_zero (prec : Nat) (emin : Int) : roundBinary prec emin 0 = 0 := by
  unfold roundBinary
  have := nearestEven_int 0
  simp only [Int.cast_zero] at this
  rw [zero_div, this]
  simp

theorem roundBinary_mono_nonneg {prec : Nat} (hprec : 1 ≤ prec) {emin : Int} {x y : Rat} (hx : 0 ≤ x) (h : x ≤ y) :
    roundBinary prec emin x ≤ roundBinary prec emin y := by
  rcases hx.lt_or_eq with hx | rfl
  · have hy := hx.trans_le h
    have hlog := Int.log_mono_right (b := 2) hx h
    have hle : lastPlace prec emin x ≤ lastPlace prec emin y := by
      unfold lastPlace
      rw [abs_of_pos hx, abs_of_pos hy]
      have := max_le_max_right emin hlog
      omega
    rcases hle.lt_or_eq with hlt | he
    · have h1 : roundBinary prec emin x ≤ 2 ^ (lastPlace prec emin x + prec) := by
        unfold roundBinary
        rw [zpow_add₀ two_ne_zero, mul_comm, zpow_natCast]
        refine mul_le_mul_of_nonneg_left ?_ (two_zpow_pos _).le
        have := (abs_le.mp (roundBinary_units prec emin x)).2
        exact_mod_cast this
      have h2 : (2 : Rat) ^ (lastPlace prec emin y + (prec - 1)) ≤ roundBinary prec emin y := by
        have hl : lastPlace prec emin y + (prec - 1) = Int.log 2 y := by
          unfold lastPlace at hlt ⊢
          rw [abs_of_pos hx] at hlt
          rw [abs_of_pos hy] at hlt ⊢
          omega
        have hz := Int.zpow_log_le_self (b := 2) one_lt_two hy
        push_cast at hz
        rw [← hl, zpow_add₀ two_ne_zero] at hz
        have hq : (2 : Rat) ^ ((prec : Int) - 1) = ((2 ^ (prec - 1) : Int) : Rat) := by
          rw [show (prec : Int) - 1 = ((prec - 1 : Nat) : Int) by omega, zpow_natCast]
          push_cast
          rfl
        unfold roundBinary
        rw [mul_comm, hq] at hz
        rw [zpow_add₀ two_ne_zero, mul_comm, hq]
        refine mul_le_mul_of_nonneg_right ?_ (two_zpow_pos _).le
        have := le_nearestEven (q := y / 2 ^ lastPlace prec emin y) (n := 2 ^ (prec - 1)) (by
          rw [le_div_iff₀ (two_zpow_pos _)]
          exact hz)
        exact_mod_cast this
      refine h1.trans (le_trans ?_ h2)
      exact zpow_le_zpow_right₀ (by norm_num) (by omega)
    · unfold roundBinary
      rw [he]
      refine mul_le_mul_of_nonneg_right ?_ (two_zpow_pos _).le
      exact_mod_cast nearestEven_mono (div_le_div_of_nonneg_right h (two_zpow_pos _).le)
  · rw [roundBinary_zero]
    exact roundBinary_nonneg prec emin h

theorem roundBinary_mono {prec : Nat} (hprec : 1 ≤ prec) {emin : Int} {x y : Rat} (h : x ≤ y) :
    roundBinary prec emin x ≤ roundBinary prec emin y := by
  by_cases hx : 0 ≤ x
  · exact roundBinary_mono_nonneg hprec hx h
  · by_cases hy : 0 ≤ y
    · have h1 := roundBinary_nonneg prec emin hy
      have h2 := roundBinary_nonneg prec emin (x := -x) (by linarith)
      rw [roundBinary_neg] at h2
      linarith
    · have := roundBinary_mono_nonneg hprec (emin := emin) (x := -y) (y := -x) (by linarith) (by linarith)
      rw [roundBinary_neg, roundBinary_neg] at this
      linarith

/-- Rounding of a binary format with at least one place that has the number one.  Models the
arithmetic of src/lib.rs:1432-1453. -/
def Rounding.binary (prec : Nat) (emin : Int) (hp : 1 ≤ prec) (he : emin - (prec - 1) ≤ 0) : Rounding where
  rnd := roundBinary prec emin
  mono _ _ := roundBinary_mono hp
  idem x := roundBinary_exact hp (roundBinary_units prec emin x) (lastPlace_zero prec emin x)
  zero := roundBinary_zero prec emin
  one := by
    have h := roundBinary_exact hp (emin := emin) (n := 1) (e := 0) (by
      rw [abs_one]
      exact one_le_pow₀ (by norm_num)) he
    simpa using h

/-- `f64`: 53 binary places, and the least normal exponent −1022.  Models the arithmetic of scores,
src/lib.rs:1432-1453. -/
def Rounding.binary64 : Rounding := .binary 53 (-1022) (by norm_num) (by norm_num)

/-- `f32`: 24 binary places, and the least normal exponent −126.  Models the arithmetic of thresholds and costs,
src/lib.rs:984-1006 and 2182-2243. -/
def Rounding.binary32 : Rounding := .binary 24 (-126) (by norm_num) (by norm_num)

/-- How far a number may be from the rounded one. -/
theorem roundBinary_close (prec : Nat) (emin : Int) (x : Rat) :
    |roundBinary prec emin x - x| ≤ max (|x| * 2 ^ (-(prec : Int))) (2 ^ (emin - prec)) := by
  have h1 : |roundBinary prec emin x - x| ≤ 2 ^ (lastPlace prec emin x - 1) := by
    have hp := two_zpow_pos (lastPlace prec emin x)
    have h := nearestEven_close (x / 2 ^ lastPlace prec emin x)
    have e : roundBinary prec emin x - x =
        ((nearestEven (x / 2 ^ lastPlace prec emin x) : Rat) - x / 2 ^ lastPlace prec emin x) *
          2 ^ lastPlace prec emin x := by
      unfold roundBinary
      rw [sub_mul, div_mul_cancel₀ _ hp.ne']
    rw [e, abs_mul, abs_of_pos hp, zpow_sub_one₀ two_ne_zero]
    nlinarith
  by_cases hz : x = 0
  · rw [hz, roundBinary_zero, sub_zero, abs_zero]
    exact le_max_of_le_right (two_zpow_pos _).le
  refine h1.trans ?_
  have hx : 0 < |x| := abs_pos.mpr hz
  by_cases hm : Int.log 2 |x| ≤ emin
  · refine le_max_of_le_right ?_
    refine zpow_le_zpow_right₀ (by norm_num) ?_
    unfold lastPlace
    omega
  · refine le_max_of_le_left ?_
    have hl := Int.zpow_log_le_self (b := 2) one_lt_two hx
    push_cast at hl
    have : lastPlace prec emin x - 1 = Int.log 2 |x| + -(prec : Int) := by unfold lastPlace; omega
    rw [this, zpow_add₀ two_ne_zero]
    exact mul_le_mul_of_nonneg_right hl (two_zpow_pos _).le

end Verif.Model
