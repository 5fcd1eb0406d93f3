import Mathlib.Data.Rat.Floor
import Mathlib.Order.Monotone.Defs

/-!
# Floating point numbers

A finite floating point number is a rational number, and an operation is the exact operation
followed by rounding.  Of rounding only what IEEE 754 guarantees in every rounding mode is assumed:
it is monotone, rounding twice is rounding once, and 0 and 1 are floating point numbers.  Infinities
and NaN are not numbers of the model; where the code can produce them the model says so.
-/
namespace Verif.Model

/-- Rounding of a floating point format (`f64` or `f32`). -/
structure Rounding where
  rnd : Rat → Rat
  mono : ∀ x y, x ≤ y → rnd x ≤ rnd y
  idem : ∀ x, rnd (rnd x) = rnd x
  zero : rnd 0 = 0
  one : rnd 1 = 1

/-- No rounding. -/
def Rounding.exact : Rounding := ⟨id, fun _ _ h => h, fun _ => rfl, rfl, rfl⟩

/-- Rounding down to a multiple of `1 / (k + 1)`: an example that does round. -/
def Rounding.fixed (k : Nat) : Rounding where
  rnd x := (⌊x * (k + 1)⌋ : Rat) / (k + 1)
  mono x y h := by
    have hk : (0 : Rat) < k + 1 := by positivity
    have : ⌊x * (k + 1)⌋ ≤ ⌊y * (k + 1)⌋ := Int.floor_le_floor (by nlinarith)
    have : ((⌊x * (k + 1)⌋ : Int) : Rat) ≤ (⌊y * (k + 1)⌋ : Int) := by exact_mod_cast this
    gcongr
  idem x := by
    have hk : ((k : Rat) + 1) ≠ 0 := by positivity
    rw [div_mul_cancel₀ _ hk, Int.floor_intCast]
  zero := by simp
  one := by
    have hk : ((k : Rat) + 1) ≠ 0 := by positivity
    have h : ((k : Rat) + 1) = ((k + 1 : Nat) : Rat) := by push_cast; ring
    rw [one_mul, h, Int.floor_natCast]
    rw [h] at hk
    simpa using div_self hk

/-- `x as u8` for a float without fractional part: saturates at 0 and 255. -/
def castU8 (x : Int) : Nat := min 255 x.toNat

end Verif.Model
