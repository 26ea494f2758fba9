import Verif.Model.Real
import Mathlib.Data.Int.Log
import Mathlib.Algebra.Order.Round

/-!
# Floating-point arithmetic: the standard model

The functions of the model take their arithmetic as a parameter (`Scalar K`). This file gives an arithmetic with rounding: every operation returns the exact result up to a
relative error `u` (for numpy's `float64`: `u = 2^-53`, as long as nothing overflows or becomes subnormal; comparisons, `abs`, `sign`, negation are exact, and so are
array sizes below `2^53`).
-/

namespace Padasip

/-- The *standard model* of floating-point arithmetic: each operation has relative error at most `u`. `F.add a b` is the rounded sum, and so on. Division is only
constrained for non-zero divisors. numpy's `exp`, `tanh`, `**` are not correctly rounded; here they share the bound `u` (take `u` larger for them). -/
structure Rounding where
  u : ℝ
  u_nonneg : 0 ≤ u
  u_lt : u < 1
  add : ℝ → ℝ → ℝ
  sub : ℝ → ℝ → ℝ
  mul : ℝ → ℝ → ℝ
  div : ℝ → ℝ → ℝ
  sqrt : ℝ → ℝ
  exp : ℝ → ℝ
  tanh : ℝ → ℝ
  log10 : ℝ → ℝ
  pow : ℝ → ℝ → ℝ
  add_err : ∀ a b, |add a b - (a + b)| ≤ u * |a + b|
  sub_err : ∀ a b, |sub a b - (a - b)| ≤ u * |a - b|
  mul_err : ∀ a b, |mul a b - a * b| ≤ u * |a * b|
  div_err : ∀ a b, b ≠ 0 → |div a b - a / b| ≤ u * |a / b|
  sqrt_err : ∀ a, |sqrt a - Real.sqrt a| ≤ u * |Real.sqrt a|
  exp_err : ∀ a, |exp a - Real.exp a| ≤ u * |Real.exp a|
  tanh_err : ∀ a, |tanh a - Real.tanh a| ≤ u * |Real.tanh a|
  log10_err : ∀ a, |log10 a - Real.logb 10 a| ≤ u * |Real.logb 10 a|
  pow_err : ∀ a b, |pow a b - a ^ b| ≤ u * |a ^ b|

/-- The numbers of a floating-point arithmetic. (Every real is admitted as a value: the bounds hold for whatever the inputs are.) -/
@[ext] structure Fl (F : Rounding) where
  val : ℝ

/-- rounded arithmetic as a `Scalar` -/
noncomputable instance (F : Rounding) : Scalar (Fl F) where
  zero := ⟨0⟩
  one := ⟨1⟩
  add a b := ⟨F.add a.val b.val⟩
  sub a b := ⟨F.sub a.val b.val⟩
  neg a := ⟨-a.val⟩
  mul a b := ⟨F.mul a.val b.val⟩
  div a b := ⟨F.div a.val b.val⟩
  abs a := ⟨|a.val|⟩
  sgn a := ⟨if 0 < a.val then 1 else if a.val < 0 then -1 else 0⟩
  lt a b := decide (a.val < b.val)
  nat n := ⟨n⟩
  eqz a := decide (a.val = 0)

/-- rounded elementary functions -/
noncomputable instance (F : Rounding) : Transc (Fl F) where
  exp a := ⟨F.exp a.val⟩
  tanh a := ⟨F.tanh a.val⟩
  sqrt a := ⟨F.sqrt a.val⟩
  log10 a := ⟨F.log10 a.val⟩
  pow a b := ⟨F.pow a.val b.val⟩

/-- `x` rounded to the nearest number with a `p`-bit significand (unbounded exponent). -/
noncomputable def roundBits (p : ℕ) (x : ℝ) : ℝ := round (x * 2 ^ ((p : ℤ) - 1 - Int.log 2 |x|)) * 2 ^ (Int.log 2 |x| - (p - 1))

theorem roundBits_err (p : ℕ) (x : ℝ) : |roundBits p x - x| ≤ (1 / 2 : ℝ) ^ p * |x| := by
  rcases eq_or_ne x 0 with rfl | hx
  · simp [roundBits]
  have hpos : 0 < |x| := abs_pos.mpr hx
  have h3 : ∀ l : ℤ, (x * 2 ^ ((p : ℤ) - 1 - l)) * 2 ^ (l - ((p : ℤ) - 1)) = x := fun l => by
    rw [mul_assoc, ← zpow_add₀ two_ne_zero]; simp
  have h4 : roundBits p x - x = (round (x * 2 ^ ((p : ℤ) - 1 - Int.log 2 |x|)) - x * 2 ^ ((p : ℤ) - 1 - Int.log 2 |x|)) * 2 ^ (Int.log 2 |x| - ((p : ℤ) - 1)) := by
    rw [sub_mul, h3]; rfl
  rw [h4, abs_mul, abs_sub_comm]
  have h5 := abs_sub_round (x * 2 ^ ((p : ℤ) - 1 - Int.log 2 |x|) : ℝ)
  have h6 : |(2 : ℝ) ^ (Int.log 2 |x| - ((p : ℤ) - 1))| = 2 * ((1 / 2) ^ p * 2 ^ Int.log 2 |x|) := by
    rw [abs_of_pos (by positivity), zpow_sub₀ two_ne_zero, zpow_sub₀ two_ne_zero, zpow_natCast, one_div, inv_pow]
    field_simp
  rw [h6]
  have h7 : (2 : ℝ) ^ Int.log 2 |x| ≤ |x| := by exact_mod_cast Int.zpow_log_le_self (b := 2) one_lt_two hpos
  calc _ ≤ 1 / 2 * (2 * ((1 / 2) ^ p * 2 ^ Int.log 2 |x|)) := mul_le_mul_of_nonneg_right h5 (by positivity)
    _ = (1 / 2) ^ p * 2 ^ Int.log 2 |x| := by ring
    _ ≤ _ := mul_le_mul_of_nonneg_left h7 (by positivity)

/-- Binary floating point with `p`-bit significands, every operation correctly rounded to nearest: `u = 2^-p`. `float64` is `p = 53`. -/
noncomputable def binary (p : ℕ) (hp : 0 < p) : Rounding where
  u := (1 / 2) ^ p
  u_nonneg := by positivity
  u_lt := pow_lt_one₀ (by norm_num) (by norm_num) hp.ne'
  add a b := roundBits p (a + b)
  sub a b := roundBits p (a - b)
  mul a b := roundBits p (a * b)
  div a b := roundBits p (a / b)
  sqrt a := roundBits p (Real.sqrt a)
  exp a := roundBits p (Real.exp a)
  tanh a := roundBits p (Real.tanh a)
  log10 a := roundBits p (Real.logb 10 a)
  pow a b := roundBits p (a ^ b)
  add_err _ _ := roundBits_err p _
  sub_err _ _ := roundBits_err p _
  mul_err _ _ := roundBits_err p _
  div_err _ _ _ := roundBits_err p _
  sqrt_err _ := roundBits_err p _
  exp_err _ := roundBits_err p _
  tanh_err _ := roundBits_err p _
  log10_err _ := roundBits_err p _
  pow_err _ _ := roundBits_err p _

end Padasip
